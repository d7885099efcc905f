import Verif.Model.TypeMap
import Verif.Proof.BTree
/-!
# C13: `TypeMap`
-/
set_option linter.unusedSectionVars false
namespace Bongo
open Std
variable {U : Type} {El : U → Type} [DecidableEq U] [Ord U] [TransOrd U] [LawfulEqOrd U]
variable (ks : TypeKeys U El)

/-- C13.  Comparing two keys never panics: the downcast is only reached for equal types. -/
theorem cmpConcrete_ok (a b : AnyBox U El) : ∃ o, cmpConcrete ks a b = .ok o := by
  unfold cmpConcrete
  cases h : compare a.1 b.1 with
  | lt => exact ⟨_, rfl⟩
  | gt => exact ⟨_, rfl⟩
  | eq =>
    have : b.1 = a.1 := (LawfulEqOrd.eq_of_compare h).symm
    simp [AnyBox.downcast, this]

theorem typeKeyCmp_same (u : U) (x y : El u) :
    typeKeyCmp ks ⟨u, x⟩ ⟨u, y⟩ = ks.keyOrd u x y := by
  simp [typeKeyCmp, cmpConcrete, AnyBox.downcast, ReflOrd.compare_self]

theorem typeKeyCmp_ne {a b : AnyBox U El} (h : a.1 ≠ b.1) :
    typeKeyCmp ks a b = compare a.1 b.1 := by
  unfold typeKeyCmp cmpConcrete
  cases hc : compare a.1 b.1 with
  | lt => rfl
  | gt => rfl
  | eq => exact absurd (LawfulEqOrd.eq_of_compare hc) h

theorem typeKeyCmp_eq {u v : U} {x : El u} {y : El v} :
    typeKeyCmp ks ⟨u, x⟩ ⟨v, y⟩ = .eq ↔ ∃ h : v = u, ks.keyOrd u x (h ▸ y) = .eq := by
  constructor
  · intro h
    by_cases huv : u = v
    · subst huv
      rw [typeKeyCmp_same] at h
      exact ⟨rfl, h⟩
    · rw [typeKeyCmp_ne ks (by simpa using huv)] at h
      exact absurd (LawfulEqOrd.eq_of_compare h) huv
  · rintro ⟨rfl, h⟩
    rw [typeKeyCmp_same]; exact h

instance typeKeyCmp_trans [∀ u, TransCmp (ks.keyOrd u)] : TransCmp (typeKeyCmp ks) where
  eq_swap {a b} := by
    obtain ⟨u, x⟩ := a; obtain ⟨v, y⟩ := b
    by_cases h : u = v
    · subst h
      rw [typeKeyCmp_same, typeKeyCmp_same]
      exact OrientedCmp.eq_swap
    · rw [typeKeyCmp_ne ks (by simpa using h), typeKeyCmp_ne ks (by simpa using Ne.symm h)]
      exact OrientedCmp.eq_swap
  isLE_trans {a b c} h1 h2 := by
    obtain ⟨u, x⟩ := a; obtain ⟨v, y⟩ := b; obtain ⟨w, z⟩ := c
    by_cases huv : u = v
    · subst huv
      by_cases huw : u = w
      · subst huw
        rw [typeKeyCmp_same] at h1 h2 ⊢
        exact TransCmp.isLE_trans h1 h2
      · rw [typeKeyCmp_ne ks (by simpa using huw)] at h2 ⊢
        exact h2
    · rw [typeKeyCmp_ne ks (by simpa using huv)] at h1
      by_cases hvw : v = w
      · subst hvw
        rw [typeKeyCmp_ne ks (by simpa using huv)]
        exact h1
      · rw [typeKeyCmp_ne ks (by simpa using hvw)] at h2
        have h3 := TransCmp.isLE_trans h1 h2
        simp only at h1 h2 h3
        by_cases huw : u = w
        · subst huw
          exfalso
          have h4 : compare u v = .eq := by
            rw [OrientedCmp.eq_swap (cmp := compare) (a := v) (b := u)] at h2
            revert h1 h2
            cases compare u v <;> simp
          exact huv (LawfulEqOrd.eq_of_compare h4)
        · rw [typeKeyCmp_ne ks (by simpa using huw)]; exact h3

/-- The mutating API over any number of maps, named by numbers (`merge` takes two different maps,
since both are borrowed mutably). -/
inductive TypeMapCall (ks : TypeKeys U El) where
  | new (m : Nat)
  | insert (m : Nat) (u : U) (key : El u) (value : El (ks.valueType u))
  | getMut (m : Nat) (u : U) (key : El u) (f : El (ks.valueType u) → El (ks.valueType u))
  | merge (m other : Nat) (h : m ≠ other)

/-- Replace one component of a family. -/
def setAt {α : Type w} (s : Nat → α) (i : Nat) (x : α) : Nat → α := fun j => if j = i then x else s j

/-- Perform one call. -/
def TypeMapCall.apply {ks : TypeKeys U El} (s : Nat → TypeMap U El) :
    TypeMapCall ks → Res (Nat → TypeMap U El)
  | .new m => .ok (setAt s m TypeMap.new)
  | .insert m u k v => .ok (setAt s m (TypeMap.insert ks (s m) u k v))
  | .getMut m u k f =>
    match TypeMap.getMut ks (s m) u k f with
    | .ok r => .ok (setAt s m r.1)
    | .panic w => .panic w
    | .oof => .oof
  | .merge m o _ =>
    let r := TypeMap.merge ks (s m) (s o)
    .ok (setAt (setAt s m r.1) o r.2)

/-- Perform a history of calls, starting with empty maps. -/
def typeMapRun {ks : TypeKeys U El} : List (TypeMapCall ks) → Res (Nat → TypeMap U El)
  | [] => .ok fun _ => TypeMap.new
  | op :: ops =>
    match typeMapRun ops with
    | .ok s => op.apply s
    | .panic w => .panic w
    | .oof => .oof

/-- Specification: a heterogeneous map is a function from keys to values of the key's own value
type. -/
abbrev TypedMap (ks : TypeKeys U El) := (u : U) → El u → Option (El (ks.valueType u))

open Classical in
/-- Specification: change the value of every key that is equal (under its type's `Ord`) to the
given one. -/
noncomputable def TypedMap.update {ks : TypeKeys U El} (t : TypedMap ks) (u : U) (key : El u)
    (f : Option (El (ks.valueType u)) → Option (El (ks.valueType u))) : TypedMap ks :=
  fun v k => if h : u = v then
      (if ks.keyOrd u (h ▸ k) key = .eq then h ▸ f (h ▸ t v k) else t v k)
    else t v k

/-- Specification of the calls (the history lists the latest call first). -/
noncomputable def typeMapSpec {ks : TypeKeys U El} : List (TypeMapCall ks) → Nat → TypedMap ks
  | [] => fun _ _ _ => none
  | .new m :: ops => setAt (typeMapSpec ops) m fun _ _ => none
  | .insert m u k v :: ops =>
    setAt (typeMapSpec ops) m ((typeMapSpec ops m).update u k fun _ => some v)
  | .getMut m u k f :: ops =>
    setAt (typeMapSpec ops) m ((typeMapSpec ops m).update u k fun o => o.map f)
  | .merge m o _ :: ops =>
    setAt (setAt (typeMapSpec ops) m fun u k =>
      match typeMapSpec ops o u k with
      | some v => some v
      | none => typeMapSpec ops m u k) o fun _ _ => none

/-- The map `m` stores exactly `t`. -/
def TypeMap.Stores (ks : TypeKeys U El) (m : TypeMap U El) (t : TypedMap ks) : Prop :=
  BMap.Sorted (typeKeyCmp ks) m ∧ ∀ u k,
    BMap.get? (typeKeyCmp ks) m ⟨u, k⟩ = (t u k).map fun v => ⟨ks.valueType u, v⟩

section
variable {ks} [∀ u, TransCmp (ks.keyOrd u)]

theorem TypeMap.stores_get {m : TypeMap U El} {t : TypedMap ks} (h : m.Stores ks t) (u : U)
    (k : El u) : m.get ks u k = .ok (t u k) := by
  unfold TypeMap.get
  rw [h.2]
  cases t u k <;> simp [AnyBox.downcast]

theorem TypeMap.stores_insert {m : TypeMap U El} {t : TypedMap ks} (h : m.Stores ks t) (u : U)
    (k : El u) (v : El (ks.valueType u)) (f) (hf : f (t u k) = some v)
    (hfe : ∀ k', ks.keyOrd u k' k = .eq → f (t u k') = some v) :
    TypeMap.Stores ks (BMap.insert (typeKeyCmp ks) m ⟨u, k⟩ ⟨ks.valueType u, v⟩)
      (t.update u k f) := by
  refine ⟨BMap.sorted_insert h.1 _ _, fun v' k' => ?_⟩
  rw [BMap.get?_insert]
  unfold TypedMap.update
  by_cases huv : u = v'
  · subst huv
    simp only [typeKeyCmp_same, dite_true]
    split
    · rename_i he; simp [hfe _ he]
    · exact h.2 u k'
  · rw [if_neg, dif_neg huv]
    · exact h.2 v' k'
    · rw [typeKeyCmp_eq]; rintro ⟨he, -⟩; exact huv he

/-- `t` gives equal keys the same value. -/
def TypedMap.Resp (t : TypedMap ks) : Prop := ∀ u k k', ks.keyOrd u k k' = .eq → t u k = t u k'

theorem TypeMap.stores_resp {m : TypeMap U El} {t : TypedMap ks} (h : m.Stores ks t) : t.Resp := by
  intro u k k' he
  have h1 := TypeMap.stores_get h u k
  have h2 := TypeMap.stores_get h u k'
  have : BMap.get? (typeKeyCmp ks) m ⟨u, k⟩ = BMap.get? (typeKeyCmp ks) m ⟨u, k'⟩ := by
    have hc : typeKeyCmp ks ⟨u, k⟩ ⟨u, k'⟩ = .eq := by rw [typeKeyCmp_same]; exact he
    generalize (⟨u, k⟩ : AnyBox U El) = a at *
    generalize (⟨u, k'⟩ : AnyBox U El) = b at *
    clear h h1 h2
    induction m with
    | nil => rfl
    | cons e m ih =>
      obtain ⟨c, v⟩ := e
      rw [BMap.get?_cons, BMap.get?_cons, cmp_congr_left (cmp := typeKeyCmp ks) hc, ih]
  unfold TypeMap.get at h1 h2
  rw [this] at h1
  rw [h1] at h2
  injection h2

theorem TypeMap.stores_merge {m o : TypeMap U El} {t to : TypedMap ks} (h : m.Stores ks t)
    (ho : o.Stores ks to) :
    (TypeMap.merge ks m o).1.Stores ks fun u k =>
      match to u k with
      | some v => some v
      | none => t u k := by
  refine ⟨?_, fun u k => ?_⟩
  · unfold TypeMap.merge
    simp only
    have := h.1
    clear ho h
    induction o generalizing m with
    | nil => exact this
    | cons e o ih => exact ih (BMap.sorted_insert this _ _)
  · have key : ∀ (o m : TypeMap U El), BMap.Sorted (typeKeyCmp ks) o →
        ∀ a, BMap.get? (typeKeyCmp ks)
          (o.foldl (fun m kv => BMap.insert (typeKeyCmp ks) m kv.1 kv.2) m) a =
        match BMap.get? (typeKeyCmp ks) o a with
        | some v => some v
        | none => BMap.get? (typeKeyCmp ks) m a := by
      intro o
      induction o with
      | nil => intro m _ a; rfl
      | cons e o ih =>
        intro m hs a
        obtain ⟨c, v⟩ := e
        have hs' := List.pairwise_cons.1 hs
        rw [List.foldl_cons, ih _ hs'.2, BMap.get?_insert, BMap.get?_cons]
        by_cases hc : typeKeyCmp ks a c = .eq
        · simp only [hc, if_true]
          have : BMap.get? (typeKeyCmp ks) o a = none := by
            cases hg : BMap.get? (typeKeyCmp ks) o a with
            | none => rfl
            | some v' =>
              obtain ⟨c', hc', he⟩ := BMap.get?_mem hg
              have h1 := hs'.1 _ hc'
              simp only at h1
              rw [← cmp_congr_left (cmp := typeKeyCmp ks) hc, he] at h1
              cases h1
          rw [this]
        · simp only [hc, if_false]
    unfold TypeMap.merge
    simp only
    rw [key o m ho.1, ho.2, h.2]
    cases to u k <;> rfl

theorem TypeMap.stores_new : TypeMap.Stores ks (TypeMap.new) (fun _ _ => none) :=
  ⟨BMap.sorted_nil, fun _ _ => rfl⟩

/-- C13.  No history of calls panics, and afterwards `get` on any map with any key returns
exactly what the specification says: the value most recently stored under an equal key of the same
type, of that type's own value type. -/
theorem type_map_correct (ops : List (TypeMapCall ks)) :
    ∃ s, typeMapRun ops = .ok s ∧
      ∀ m u (key : El u), (s m).get ks u key = .ok (typeMapSpec ops m u key) := by
  suffices ∃ s, typeMapRun ops = .ok s ∧ ∀ m, (s m).Stores ks (typeMapSpec ops m) by
    obtain ⟨s, h1, h2⟩ := this
    exact ⟨s, h1, fun m u k => TypeMap.stores_get (h2 m) u k⟩
  induction ops with
  | nil => exact ⟨_, rfl, fun m => TypeMap.stores_new⟩
  | cons op ops ih =>
    obtain ⟨s, h1, h2⟩ := ih
    unfold typeMapRun
    rw [h1]
    simp only
    have hset : ∀ (s : Nat → TypeMap U El) (t : Nat → TypedMap ks) i x y,
        (∀ m, (s m).Stores ks (t m)) → TypeMap.Stores ks x y →
        ∀ m, (setAt s i x m).Stores ks (setAt t i y m) := by
      intro s t i x y h hx m
      unfold setAt
      split
      · exact hx
      · exact h m
    cases op with
    | new m => exact ⟨_, rfl, hset _ _ _ _ _ h2 TypeMap.stores_new⟩
    | insert m u k v =>
      exact ⟨_, rfl, hset _ _ _ _ _ h2 (TypeMap.stores_insert (h2 m) u k v _ rfl (fun _ _ => rfl))⟩
    | getMut m u k f =>
      simp only [TypeMapCall.apply, TypeMap.getMut, (h2 m).2]
      have hres := TypeMap.stores_resp (h2 m)
      cases ht : typeMapSpec ops m u k with
      | none =>
        refine ⟨_, rfl, hset _ _ _ _ _ h2 ?_⟩
        have : (typeMapSpec ops m).update u k (fun o => o.map f) = typeMapSpec ops m := by
          funext v k'
          unfold TypedMap.update
          by_cases huv : u = v
          · subst huv
            simp only [dite_true]
            split
            · rename_i he
              rw [hres u k' k he, ht]; rfl
            · rfl
          · rw [dif_neg huv]
        rw [this]
        exact h2 m
      | some x =>
        simp only [Option.map_some, AnyBox.downcast, dite_true]
        refine ⟨_, rfl, hset _ _ _ _ _ h2 (TypeMap.stores_insert (h2 m) u k (f x) _ ?_ ?_)⟩
        · rw [ht]; rfl
        · intro k' he
          rw [hres u k' k he, ht]; rfl
    | merge m o hmo =>
      exact ⟨_, rfl, hset _ _ _ _ _ (hset _ _ _ _ _ h2 (TypeMap.stores_merge (h2 m) (h2 o)))
        TypeMap.stores_new⟩
end

/-! A concrete family: two key types with values of the other type. -/
def exampleKeys : TypeKeys Bool (fun b => if b then Nat else String) where
  keyOrd u := match u with
    | true => (compare : Nat → Nat → Ordering)
    | false => (compare : String → String → Ordering)
  valueType u := !u

/-- The hypotheses are met by that family, and a history over it reads back what was written. -/
example : (∀ u, TransCmp (exampleKeys.keyOrd u)) ∧
    ∃ s, typeMapRun (ks := exampleKeys)
        [.merge 0 1 (by decide), .insert 1 true (7 : Nat) "b", .insert 1 false "x" (1 : Nat),
          .insert 0 true (7 : Nat) "a"] = .ok s ∧
      (s 0).get exampleKeys true (7 : Nat) = .ok (some "b") ∧
      (s 0).get exampleKeys false "x" = .ok (some (1 : Nat)) ∧
      (s 1).get exampleKeys true (7 : Nat) = .ok none := by
  refine ⟨?_, _, rfl, rfl, rfl, rfl⟩
  intro u
  cases u
  · exact (inferInstance : TransCmp (compare : String → String → Ordering))
  · exact (inferInstance : TransCmp (compare : Nat → Nat → Ordering))
end Bongo
