import Verif.Props.LalrExamples
import Verif.Props.Pass
/-!
# C125: what building LALR states does to the pass context
-/
set_option linter.unusedSectionVars false
namespace Bongo
open Std PassContext

section
variable {T NT AK AV : Type} [Ord T] [TransOrd T] [LawfulEqOrd T]
  [Ord NT] [TransOrd NT] [LawfulEqOrd NT]
variable (g : Grammar T NT AK AV) (addr : NT → Nat → Nat)
  (collect : List (ProdState T NT AK AV × BSet T) → BMap (ProdState T NT AK AV) (BSet T))

/-- C125.  `from_prod_lookahead` leaves the context as one `get_pass::<Firsts>()` does, and returns
an error exactly when that does, the same one. -/
theorem from_prod_context (items : List (ProdState T NT AK AV × BSet T)) (fuel : Nat)
    (passes passes' : ParseState.Ctx T NT AK) (r : Except NullableError (ParseState T NT AK AV))
    (h : ParseState.fromProdLookahead fuel collect addr g passes items = .ok (passes', r)) :
    ∃ v, getPass fuel (cratePasses fuel addr g) passes .firsts = .ok (passes', v) ∧
      ∀ e, r = .error e ↔ v = .error e := by
  unfold ParseState.fromProdLookahead at h
  cases hg : getPass fuel (cratePasses fuel addr g) passes .firsts with
  | panic w => rw [hg] at h; cases h
  | oof => rw [hg] at h; cases h
  | ok x =>
    obtain ⟨σ, v⟩ := x
    rw [hg] at h
    cases v with
    | error e =>
      simp only [Res.ok.injEq, _root_.Prod.mk.injEq] at h
      obtain ⟨rfl, rfl⟩ := h
      exact ⟨_, rfl, by simp⟩
    | ok v =>
      cases v with
      | nullable _ => cases h
      | follows _ => cases h
      | firsts f =>
        simp only at h
        cases hcl : ParseState.close fuel collect addr g f items with
        | panic w => rw [hcl] at h; cases h
        | oof => rw [hcl] at h; cases h
        | ok st =>
          rw [hcl] at h
          simp only [Res.ok.injEq, _root_.Prod.mk.injEq] at h
          obtain ⟨rfl, rfl⟩ := h
          exact ⟨_, rfl, by simp⟩

theorem shiftEach_context {fuel : Nat} :
    ∀ {gs : List (T × BSet (ProdState T NT AK AV × BSet T))} {σ σ' : ParseState.Ctx T NT AK} {r},
    ParseState.shiftEach fuel collect addr g σ gs = .ok (σ', r) →
    (∃ l, r = .ok l ∧ l.map (·.1) = gs.map (·.1) ∧
      getPasses fuel (cratePasses fuel addr g) σ (List.replicate gs.length .firsts) = .ok σ') ∨
    (∃ e n σ₁, r = .error e ∧
      getPasses fuel (cratePasses fuel addr g) σ (List.replicate n .firsts) = .ok σ₁ ∧
      (n ≠ 0 → ∃ σ₂ v, getPass fuel (cratePasses fuel addr g) σ .firsts = .ok (σ₂, .ok v)) ∧
      getPass fuel (cratePasses fuel addr g) σ₁ .firsts = .ok (σ', .error e)) := by
  intro gs
  induction gs with
  | nil =>
    intro σ σ' r h
    simp only [ParseState.shiftEach, Res.ok.injEq, _root_.Prod.mk.injEq] at h
    obtain ⟨rfl, rfl⟩ := h
    exact Or.inl ⟨[], rfl, rfl, rfl⟩
  | cons x gs ih =>
    obtain ⟨t, items⟩ := x
    intro σ σ' r h
    rw [ParseState.shiftEach] at h
    cases hf : ParseState.fromProdLookahead fuel collect addr g σ items with
    | panic w => rw [hf] at h; cases h
    | oof => rw [hf] at h; cases h
    | ok y =>
      obtain ⟨σ₁, r₁⟩ := y
      rw [hf] at h
      obtain ⟨v, hv, hve⟩ := from_prod_context g addr collect items fuel σ σ₁ r₁ hf
      cases r₁ with
      | error e =>
        simp only [Res.ok.injEq, _root_.Prod.mk.injEq] at h
        obtain ⟨rfl, rfl⟩ := h
        have := (hve e).1 rfl
        subst this
        exact Or.inr ⟨e, 0, σ, rfl, rfl, fun h => absurd rfl h, hv⟩
      | ok st =>
        have hok : ∃ w, v = .ok w := by
          cases v with
          | ok w => exact ⟨w, rfl⟩
          | error e => cases (hve e).2 rfl
        obtain ⟨w, rfl⟩ := hok
        simp only at h
        cases hr : ParseState.shiftEach fuel collect addr g σ₁ gs with
        | panic w => rw [hr] at h; cases h
        | oof => rw [hr] at h; cases h
        | ok z =>
          obtain ⟨σ₂, r₂⟩ := z
          rw [hr] at h
          rcases ih hr with ⟨l, rfl, k1, k2⟩ | ⟨e, n, σ₃, rfl, k1, -, k2⟩
          · simp only [Res.ok.injEq, _root_.Prod.mk.injEq] at h
            obtain ⟨rfl, rfl⟩ := h
            refine Or.inl ⟨_, rfl, by simp [k1], ?_⟩
            rw [List.length_cons, List.replicate_succ, getPasses, hv]
            exact k2
          · simp only [Res.ok.injEq, _root_.Prod.mk.injEq] at h
            obtain ⟨rfl, rfl⟩ := h
            refine Or.inr ⟨e, n + 1, σ₃, rfl, ?_, fun _ => ⟨σ₁, w, hv⟩, k2⟩
            rw [List.replicate_succ, getPasses, hv]
            exact k1

/-- C125.  `shift_actions` leaves the context as one `get_pass::<Firsts>()` per terminal it lists. -/
theorem shift_context (st : ParseState T NT AK AV) (hg : g.Accepted) (ha : AddrInj g addr)
    (hst : ParseState.Obtained addr g st)
    (fuel : Nat) (passes passes' : ParseState.Ctx T NT AK) (m : BMap T (ParseState T NT AK AV))
    (h : ParseState.shiftActions fuel collect addr g passes st = .ok (passes', .ok m)) :
    getPasses fuel (cratePasses fuel addr g) passes (List.replicate m.length .firsts) =
      .ok passes' := by
  obtain ⟨g1, -, -⟩ := shiftGroups hg.valid.toWF ha (hst.ok hg.valid ha)
  unfold ParseState.shiftActions at h
  cases hr : ParseState.shiftEach fuel collect addr g passes
      (shuffleIter compare (itemCmp addr) st.shiftPairs) with
  | panic w => rw [hr] at h; cases h
  | oof => rw [hr] at h; cases h
  | ok y =>
    obtain ⟨σ₁, r⟩ := y
    rw [hr] at h
    rcases shiftEach_context g addr collect hr with ⟨l, rfl, k1, k2⟩ | ⟨e, n, σ₂, rfl, -, -, -⟩
    · simp only [Res.ok.injEq, _root_.Prod.mk.injEq, Except.ok.injEq] at h
      obtain ⟨rfl, rfl⟩ := h
      have hsl : BMap.Sorted compare l := by
        have := BMap.keys_sorted g1
        unfold BMap.keys at this
        rw [← k1] at this
        unfold BSet.Sorted at this
        rw [List.pairwise_map] at this
        exact this
      have hlen : (BMap.ofList compare l).length = l.length := by
        have hm := BMap.mem_ofList_of_sorted l hsl
        have hn : ∀ {l : List (T × ParseState T NT AK AV)}, BMap.Sorted compare l → l.Nodup := by
          intro l hl
          refine hl.imp ?_
          rintro a b hab rfl
          rw [cmp_self (cmp := (compare : T → T → Ordering))] at hab
          cases hab
        exact ((List.perm_ext_iff_of_nodup (hn (BMap.sorted_ofList l)) (hn hsl)).2 hm).length_eq
      rw [hlen, show l.length = (shuffleIter compare (itemCmp addr) st.shiftPairs).length from by
        have := congrArg List.length k1
        simpa using this]
      exact k2
    · simp only [Res.ok.injEq, _root_.Prod.mk.injEq] at h
      cases h.2

/-- C125.  If `shift_actions` returns an error, on whatever used context, it is that of its first
`get_pass::<Firsts>()`, nothing else has been run, and from then on every request for the FIRST
sets, hence building any state, panics. -/
theorem shift_error_context (st : ParseState T NT AK AV) (fuel : Nat)
    (passes passes' : ParseState.Ctx T NT AK) (hu : UsedContext fuel addr g passes)
    (e : NullableError)
    (h : ParseState.shiftActions fuel collect addr g passes st = .ok (passes', .error e)) :
    getPass fuel (cratePasses fuel addr g) passes .firsts = .ok (passes', .error e) ∧
    ∀ qs passes'', getPasses fuel (cratePasses fuel addr g) passes' qs = .ok passes'' →
      (∀ n, getPass (n + 1) (cratePasses fuel addr g) passes'' .firsts = .panic .passRecursion) ∧
      ∀ items, ParseState.fromProdLookahead fuel collect addr g passes'' items =
        .panic .passRecursion := by
  have h1 : getPass fuel (cratePasses fuel addr g) passes .firsts = .ok (passes', .error e) := by
    unfold ParseState.shiftActions at h
    cases hr : ParseState.shiftEach fuel collect addr g passes
        (shuffleIter compare (itemCmp addr) st.shiftPairs) with
    | panic w => rw [hr] at h; cases h
    | oof => rw [hr] at h; cases h
    | ok y =>
      obtain ⟨σ₁, r⟩ := y
      rw [hr] at h
      rcases shiftEach_context g addr collect hr with ⟨l, rfl, -, -⟩ | ⟨e', n, σ₂, rfl, k1, k2, k3⟩
      · simp only [Res.ok.injEq, _root_.Prod.mk.injEq] at h
        cases h.2
      · simp only [Res.ok.injEq, _root_.Prod.mk.injEq, Except.error.injEq] at h
        obtain ⟨rfl, -⟩ := h
        have he : e' = e := by cases e; cases e'; rfl
        subst he
        cases n with
        | zero =>
          simp only [List.replicate_zero, getPasses, Res.ok.injEq] at k1
          rw [k1]
          exact k3
        | succ n =>
          obtain ⟨σ₃, v, k4⟩ := k2 (by omega)
          obtain ⟨ps, hps⟩ := hu
          rw [List.replicate_succ, getPasses, k4] at k1
          have k5 := pass_value_shared _ fuel ps _ passes σ₃ σ₂ .firsts v hps k4 k1
          cases fuel with
          | zero => simp [getPass] at k4
          | succ fu =>
            rw [k5 fu] at k3
            simp at k3
  refine ⟨h1, fun qs passes'' hq => ?_⟩
  obtain ⟨ps, hps⟩ := hu
  have h2 := failed_pass_panics_again _ fuel ps qs passes passes' passes'' .firsts e hps h1 hq
  refine ⟨h2, fun items => ?_⟩
  cases fuel with
  | zero => simp [getPass] at h1
  | succ fu =>
    unfold ParseState.fromProdLookahead
    rw [h2 fu]

/-- C125.  Shifting from a state of the same grammar never returns an error: that the state was
built shows that the Nullable pass succeeds. -/
theorem shift_no_error (st : ParseState T NT AK AV)
    (hst : ParseState.Obtained addr g st)
    (fuel : Nat) (passes passes' : ParseState.Ctx T NT AK) (hu : UsedContext fuel addr g passes)
    (e : NullableError) :
    ParseState.shiftActions fuel collect addr g passes st ≠ .ok (passes', .error e) := by
  intro h
  have h1 := (shift_error_context g addr collect st fuel passes passes' hu e h).1
  have hf : ∃ n f, firstsPass n addr g = .ok (.ok f) := by
    clear h
    induction hst with
    | new hc hu' hk hb =>
      obtain ⟨-, f, hf, -⟩ := fromProdLookahead_ok hu' hb
      exact ⟨_, f, hf⟩
    | shift _ _ _ _ _ ih => exact ih
  obtain ⟨n, f, hf⟩ := hf
  obtain ⟨ps, hps⟩ := hu
  have h2 := pass_value_meaning _ fuel ps passes hps _ _ _ h1
  have h3 : firstsPass fuel addr g = .ok (.error e) := by
    unfold Eval at h2
    rw [cratePasses] at h2
    cases h2 with
    | get h3 h4 =>
      rename_i r'
      rw [cratePasses] at h3
      unfold firstsPass
      cases hn : calculateNullables fuel addr g with
      | panic w => rw [hn] at h3; cases h3
      | oof => rw [hn] at h3; cases h3
      | ok y =>
        rw [hn] at h3
        cases y with
        | error e' =>
          cases h3
          cases h4
          rfl
        | ok i =>
          cases h3
          simp only at h4
          cases hr : Firsts.runPass fuel g (.ok i) with
          | panic w => rw [hr] at h4; cases h4
          | oof => rw [hr] at h4; cases h4
          | ok y =>
            rw [hr] at h4
            cases y with
            | error e'' => cases h4; simp [hr]
            | ok f => cases h4
  have a := firstsPass_mono (Nat.le_max_left n fuel) hf
  have b := firstsPass_mono (Nat.le_max_right n fuel) h3
  rw [a] at b
  cases b
end

/-- A state of another grammar, shifted on the context of an ambiguous one: the error branch. -/
example : UsedContext 20 exampleAddr nullAmbiguous .new ∧
    ∃ σ e, ParseState.shiftActions 20 exampleCollect exampleAddr nullAmbiguous .new lalrState =
      .ok (σ, .error e) ∧ σ.log ≠ [] := ⟨⟨[], rfl⟩, _, _, rfl, by decide⟩

/-- The hypotheses of `shift_context` and `shift_no_error` are met, with two terminals. -/
example : ∃ σ m, ParseState.shiftActions 20 exampleCollect exampleAddr lalrExample .new lalrState =
      .ok (σ, .ok m) ∧ m.length = 2 ∧ σ.log.length = 5 ∧
      ParseState.Obtained exampleAddr lalrExample lalrState ∧
      UsedContext 20 exampleAddr lalrExample .new :=
  ⟨_, _, rfl, rfl, rfl, lalrState_obtained, ⟨[], rfl⟩⟩

end Bongo
