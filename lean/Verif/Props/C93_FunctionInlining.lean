import Verif.Lemmas.FunctionInlining

/-!
# C93: a call has the same results after the inlining

In full: if a function can be inlined and a call of it returns some results, then the operations that replace the call
give these results, whatever the variables of the caller.
-/

namespace Marco.Props
open Marco.Inline Marco.Spec.Inline

/-- The full claim. -/
def C93_full : Prop :=
  ∀ (V : Type) (M : Meaning V) (caller : Nat → Option V) (f : Function) (c : Call V) (order : List Nat) (rs : List V),
    canBeInlined f = true → order.Perm f.inputs → Fits f c → Returns M f c rs →
      Replaced M caller c (inlineFunction f order c.args.length) rs

/-- The claim holds for functions with inputs, in which only inputs have default values, which do not depend on variables;
that do not assign elements, do not read variables inside regions, and do not contain `return`; and for calls without
names. -/
theorem C93_partial {V : Type} {M : Meaning V} (caller : Nat → Option V) {f : Function} {c : Call V}
    {order : List Nat} {rs : List V} (ho : order.Perm f.inputs) (hc : Fits f c) (hne : f.inputs ≠ [])
    (hnames : c.names = none) (hd : ∀ x d, f.default x = some d → x ∈ f.inputs ∧ Constant M d)
    (hs : ∀ a ∈ f.algorithms, ∀ op ∈ a, Simple op) (hr : Returns M f c rs) :
    Replaced M caller c (inlineFunction f order c.args.length) rs := by
  obtain ⟨vars, e, hb, he, hout⟩ := hr
  have h0 : Sim M caller c.args ⟨[], fun _ => none, fun _ => none⟩ ⟨fun _ => none, fun _ => none⟩ :=
    ⟨[], rfl, fun _ _ h => (by cases h), fun _ _ h => by cases h⟩
  obtain ⟨s1, vars1, hs1, h1, hx1⟩ := sim_defaults (order := order) (fun x _ d hxd => (hd x d hxd).2) h0
  obtain ⟨s2, vars2, hs2, h2, hi2, hx2⟩ := sim_args hc.inputs h1 c.args.length hc.args (Nat.le_refl _)
  have hvars : ∀ x v, vars x = some v → vars2 x = some v := by
    intro x v hx
    obtain ⟨ha, hdef, hno⟩ := hb x
    by_cases harg : ∃ w, c.argument f x w
    · obtain ⟨w, hw⟩ := harg
      have := ha w hw
      rw [hx] at this
      obtain rfl := Option.some.inj this
      obtain ⟨i, hix, hiv⟩ := hw
      rw [hnames] at hix
      rw [hi2 i (List.getElem?_eq_some_iff.1 hiv).1 x hix, hiv]
    · have harg' : ∀ w, ¬ c.argument f x w := fun w hw => harg ⟨w, hw⟩
      have hnot : ∀ i < c.args.length, f.inputs[i]? ≠ some x := fun i hi hix =>
        harg ⟨_, i, by rw [hnames]; exact hix, List.getElem?_eq_getElem hi⟩
      rw [hx2 x hnot]
      cases hdx : f.default x with
      | none =>
        rw [hno harg' hdx] at hx
        cases hx
      | some d =>
        obtain ⟨hin, hconst, w, hw⟩ := hd x d hdx
        obtain ⟨w', hw', hxw⟩ := hdef harg' d hdx
        rw [evalRegion_const hconst hw vars] at hw'
        obtain rfl := Option.some.inj hw'
        rw [hx] at hxw
        obtain rfl := Option.some.inj hxw
        exact hx1 x d v hdx hw (.inl (ho.mem_iff.2 hin))
  have h3 : Sim M caller c.args s2 ⟨vars, fun _ => none⟩ := sim_weaken h2 hvars fun _ _ h => by cases h
  have hsimple : ∀ op ∈ f.algorithms.flatten, Simple op := by
    intro op hop
    obtain ⟨a, ha, hop⟩ := List.mem_flatten.1 hop
    exact hs a ha op hop
  obtain ⟨s4, hs4, news, hnews, hv4, -⟩ := sim_run hsimple h3 he
  refine ⟨s4.ops, f.outputs.map s4.vars, news, ?_, hnews, mapM_outputs hv4 hout⟩
  simp only [inlineFunction, if_neg hne]
  simp [hs1, hs2, hs4]

/-- The functions that are inlined: marked by the user, with one algorithm, in which no region assigns a variable. -/
theorem C93_chosen (f : Function) : canBeInlined f = true ↔
    f.marked = true ∧ ∃ body, f.algorithms = [body] ∧ ∀ r k args reads sets, Op.pure r k args reads sets ∈ body → sets = [] := by
  unfold canBeInlined
  rw [Bool.and_eq_true, Bool.and_eq_true, and_assoc, List.all_eq_true]
  refine and_congr_right fun _ => ?_
  constructor
  · rintro ⟨h1, h2⟩
    obtain ⟨body, hb⟩ := List.length_eq_one_iff.1 (beq_iff_eq.1 h1)
    refine ⟨body, hb, fun r k args reads sets hm => ?_⟩
    have := List.all_eq_true.1 (h2 body (by rw [hb]; exact List.mem_singleton_self _)) _ hm
    exact List.isEmpty_iff.1 this
  · rintro ⟨body, hb, h⟩
    rw [hb]
    refine ⟨rfl, fun a ha => ?_⟩
    obtain rfl := List.mem_singleton.1 ha
    refine List.all_eq_true.2 fun op hop => ?_
    cases op with
    | pure r k args reads sets => exact List.isEmpty_iff.2 (h r k args reads sets hop)
    | _ => rfl

/-! ## A case for the theorems -/

/-- `input Real x; input Real y = 2; output Real z; protected Real t; algorithm t := x + y; t := t * x; z := t;` -/
def C93_function : Function where
  inputs := [0, 1]
  outputs := [2]
  default := fun x => if x = 1 then some ⟨[.pure 10 2 [] [] []], 10⟩ else none
  algorithms := [[.get 0 0, .get 1 1, .pure 2 0 [0, 1] [] [], .set 3 [] 2, .get 3 3, .get 4 0, .pure 5 1 [3, 4] [] [],
    .set 3 [] 5, .get 6 3, .set 2 [] 6]]
  marked := true

/-- `0`: the sum, `1`: the product, `2`: the constant 2, `3`: the sum with the variables read in the region. The
assignment to an element adds to the former value. -/
def C93_meaning : Meaning Int where
  apply := fun k vs rs => match k, vs with
    | 0, [a, b] => a + b
    | 1, [a, b] => a * b
    | 2, [] => 2
    | _, vs => vs.sum + rs.sum
  update := fun old _ v => old.getD 0 + v

theorem C93_constant : Constant C93_meaning ⟨[.pure 10 2 [] [] []], 10⟩ := by
  refine ⟨?_, 2, rfl⟩
  intro op hop
  obtain rfl := List.mem_singleton.1 hop
  exact ⟨10, 2, [], rfl⟩

/-- `f(5)` returns `(5 + 2) * 5`. -/
theorem C93_returns : Returns C93_meaning C93_function ⟨[5], none⟩ [35] := by
  refine ⟨fun x => if x = 0 then some 5 else if x = 1 then some 2 else none, _, ?_, rfl, rfl⟩
  intro x
  refine ⟨?_, ?_, ?_⟩
  · rintro v ⟨i, hi, hv⟩
    match i with
    | 0 =>
      obtain rfl : 0 = x := by simpa [C93_function] using hi
      simpa using hv
    | i + 1 => simp at hv
  · intro _ d hd
    by_cases hx : x = 1
    · subst hx
      obtain rfl : _ = d := Option.some.inj hd
      exact ⟨2, rfl, rfl⟩
    · simp [C93_function, hx] at hd
  · intro hno hd
    have h0 : x ≠ 0 := by
      rintro rfl
      exact hno 5 ⟨0, rfl, rfl⟩
    have h1 : x ≠ 1 := by
      rintro rfl
      simp [C93_function] at hd
    simp [h0, h1]

theorem C93_fits : Fits C93_function (⟨[5], none⟩ : Call Int) :=
  ⟨by decide, by decide, fun _ h => by cases h⟩

theorem C93_defaults : ∀ x d, C93_function.default x = some d → x ∈ C93_function.inputs ∧ Constant C93_meaning d := by
  intro x d h
  by_cases hx : x = 1
  · subst hx
    obtain rfl : _ = d := Option.some.inj h
    exact ⟨by decide, C93_constant⟩
  · simp [C93_function, hx] at h

theorem C93_simple : ∀ a ∈ C93_function.algorithms, ∀ op ∈ a, Simple op := by
  simp [C93_function, Simple]

/-- The hypotheses are met; the order of the inputs does not matter. -/
example : Replaced C93_meaning (fun _ => some 100) ⟨[5], none⟩ (inlineFunction C93_function [1, 0] 1) [35] :=
  C93_partial _ (order := [1, 0]) (by decide) C93_fits (by decide) rfl C93_defaults C93_simple C93_returns

/-- The function can be inlined; without the mark it is not. -/
example : canBeInlined C93_function = true ∧ canBeInlined { C93_function with marked := false } = false := by decide

/-! ## The claim in full is false -/

/-- `input Real x; input Real y = x; output Real z; algorithm z := y;` -/
def C93_dependent : Function where
  inputs := [0, 1]
  outputs := [2]
  default := fun x => if x = 1 then some ⟨[.get 10 0], 10⟩ else none
  algorithms := [[.get 0 1, .set 2 [] 0]]
  marked := true

/-- The default value reads the variable of the caller that has the name of the input: `f(5)` returns 5, but after the
inlining it is the value 7 of the variable `x` of the caller. -/
theorem C93_capture : Returns C93_meaning C93_dependent ⟨[5], none⟩ [5] ∧
    Replaced C93_meaning (fun _ => some 7) ⟨[5], none⟩ (inlineFunction C93_dependent [0, 1] 1) [7] ∧
    ¬ Replaced C93_meaning (fun _ => some 7) ⟨[5], none⟩ (inlineFunction C93_dependent [0, 1] 1) [5] := by
  refine ⟨⟨fun x => if x = 0 then some 5 else if x = 1 then some 5 else none, _, ?_, rfl, rfl⟩,
    ⟨_, _, _, rfl, rfl, rfl⟩, ?_⟩
  · intro x
    refine ⟨?_, ?_, ?_⟩
    · rintro v ⟨i, hi, hv⟩
      match i with
      | 0 =>
        obtain rfl : 0 = x := by simpa [C93_dependent] using hi
        simpa using hv
      | i + 1 => simp at hv
    · intro _ d hd
      by_cases hx : x = 1
      · subst hx
        obtain rfl : _ = d := Option.some.inj hd
        exact ⟨5, rfl, rfl⟩
      · simp [C93_dependent, hx] at hd
    · intro hno hd
      have h0 : x ≠ 0 := by
        rintro rfl
        exact hno 5 ⟨0, rfl, rfl⟩
      have h1 : x ≠ 1 := by
        rintro rfl
        simp [C93_dependent] at hd
      simp [h0, h1]
  · rintro ⟨ops, vals, news, h1, h2, h3⟩
    obtain ⟨rfl, rfl⟩ := Prod.mk.inj (Option.some.inj h1)
    obtain rfl := Option.some.inj h2
    have := Option.some.inj h3
    revert this
    decide

theorem C93_full_false : ¬ C93_full := fun h =>
  C93_capture.2.2 (h _ _ _ _ _ [0, 1] _ (by decide) (by decide) ⟨by decide, by decide, fun _ h => by cases h⟩
    C93_capture.1)

/-- Functions with the input `0` and the output `1`, without default values. -/
def C93_unary (body : List Op) : Function where
  inputs := [0]
  outputs := [1]
  default := fun _ => none
  algorithms := [body]
  marked := true

theorem C93_unary_begins (body : List Op) : Begins C93_meaning (C93_unary body) ⟨[5], none⟩
    (fun x => if x = 0 then some 5 else none) := by
  intro x
  refine ⟨?_, fun _ d hd => (by cases hd), fun hno _ => ?_⟩
  · rintro v ⟨i, hi, hv⟩
    match i with
    | 0 =>
      obtain rfl : 0 = x := by simpa [C93_unary] using hi
      simpa using hv
    | i + 1 => simp at hv
  · have h0 : x ≠ 0 := by
      rintro rfl
      exact hno 5 ⟨0, rfl, rfl⟩
    simp [h0]

/-- `algorithm y := x; y[x] := x;`: the assignment to an element is taken as an assignment to the variable. With the
meaning above the call returns 10. -/
theorem C93_full_false_element : ¬ C93_full := by
  intro h
  obtain ⟨ops, vals, news, h1, h2, h3⟩ := h Int C93_meaning (fun _ => none)
    (C93_unary [.get 0 0, .set 1 [] 0, .set 1 [0] 0]) ⟨[5], none⟩ [0] [10] (by decide) (by decide)
    ⟨by decide, by decide, fun _ h => by cases h⟩ ⟨_, _, C93_unary_begins _, rfl, rfl⟩
  obtain ⟨rfl, rfl⟩ := Prod.mk.inj (Option.some.inj h1)
  obtain rfl := Option.some.inj h2
  have := Option.some.inj h3
  revert this
  decide

/-- An operation with a region that reads `x` reads the variable of the caller. -/
theorem C93_full_false_region : ¬ C93_full := by
  intro h
  obtain ⟨ops, vals, news, h1, h2, h3⟩ := h Int C93_meaning (fun _ => some 7)
    (C93_unary [.pure 0 3 [] [0] [], .set 1 [] 0]) ⟨[5], none⟩ [0] [5] (by decide) (by decide)
    ⟨by decide, by decide, fun _ h => by cases h⟩ ⟨_, _, C93_unary_begins _, rfl, rfl⟩
  obtain ⟨rfl, rfl⟩ := Prod.mk.inj (Option.some.inj h1)
  obtain rfl := Option.some.inj h2
  have := Option.some.inj h3
  revert this
  decide

/-- `algorithm y := x; return;`: the caller is left. -/
theorem C93_full_false_return : ¬ C93_full := by
  intro h
  obtain ⟨ops, vals, news, h1, h2, h3⟩ := h Int C93_meaning (fun _ => none)
    (C93_unary [.get 0 0, .set 1 [] 0, .ret]) ⟨[5], none⟩ [0] [5] (by decide) (by decide)
    ⟨by decide, by decide, fun _ h => by cases h⟩ ⟨_, _, C93_unary_begins _, rfl, rfl⟩
  obtain ⟨rfl, rfl⟩ := Prod.mk.inj (Option.some.inj h1)
  cases h2

/-- `output Real y = 2; algorithm`: the default values of the variables that are no inputs are dropped, and the result is
a null value. Here also an input. -/
def C93_output : Function where
  inputs := [0]
  outputs := [1]
  default := fun x => if x = 1 then some ⟨[.pure 10 2 [] [] []], 10⟩ else none
  algorithms := [[]]
  marked := true

theorem C93_full_false_output : ¬ C93_full := by
  intro h
  obtain ⟨ops, vals, news, h1, h2, h3⟩ := h Int C93_meaning (fun _ => none) C93_output ⟨[5], none⟩ [0] [2]
    (by decide) (by decide) ⟨by decide, by decide, fun _ h => by cases h⟩ (by
      refine ⟨fun x => if x = 0 then some 5 else if x = 1 then some 2 else none, _, ?_, rfl, rfl⟩
      intro x
      refine ⟨?_, ?_, ?_⟩
      · rintro v ⟨i, hi, hv⟩
        match i with
        | 0 =>
          obtain rfl : 0 = x := by simpa [C93_output] using hi
          simpa using hv
        | i + 1 => simp at hv
      · intro _ d hd
        by_cases hx : x = 1
        · subst hx
          obtain rfl : _ = d := Option.some.inj hd
          exact ⟨2, rfl, rfl⟩
        · simp [C93_output, hx] at hd
      · intro hno hd
        have h0 : x ≠ 0 := by
          rintro rfl
          exact hno 5 ⟨0, rfl, rfl⟩
        have h1 : x ≠ 1 := by
          rintro rfl
          simp [C93_output] at hd
        simp [h0, h1])
  obtain ⟨rfl, rfl⟩ := Prod.mk.inj (Option.some.inj h1)
  cases h3

/-- A function without inputs: undefined behaviour. -/
def C93_nullary : Function where
  inputs := []
  outputs := [0]
  default := fun _ => none
  algorithms := [[.pure 0 2 [] [] [], .set 0 [] 0]]
  marked := true

theorem C93_full_false_nullary : ¬ C93_full := by
  intro h
  obtain ⟨ops, vals, news, h1, -⟩ := h Int C93_meaning (fun _ => none) C93_nullary ⟨[], none⟩ [] [2]
    (by decide) (by decide) ⟨by decide, by decide, fun _ h => by cases h⟩ (by
      refine ⟨fun _ => none, _, fun x => ⟨?_, fun _ d hd => (by cases hd), fun _ _ => rfl⟩, rfl, rfl⟩
      rintro v ⟨i, -, hv⟩
      simp at hv)
  cases h1

/-- `input Real x = 2; input Real y = 2; output Real z; algorithm z := y;`, called with `f(y = 5)`: the argument is taken
for `x`. -/
def C93_named : Function where
  inputs := [0, 1]
  outputs := [2]
  default := fun x => if x < 2 then some ⟨[.pure 10 2 [] [] []], 10⟩ else none
  algorithms := [[.get 0 1, .set 2 [] 0]]
  marked := true

theorem C93_full_false_named : ¬ C93_full := by
  intro h
  obtain ⟨ops, vals, news, h1, h2, h3⟩ := h Int C93_meaning (fun _ => none) C93_named ⟨[5], some [1]⟩ [0, 1] [5]
    (by decide) (by decide) ⟨by decide, by decide, fun ns h => by obtain rfl := Option.some.inj h; decide⟩ (by
      refine ⟨fun x => if x = 1 then some 5 else if x = 0 then some 2 else none, _, ?_, rfl, rfl⟩
      intro x
      refine ⟨?_, ?_, ?_⟩
      · rintro v ⟨i, hi, hv⟩
        match i with
        | 0 =>
          obtain rfl : 1 = x := by simpa using hi
          simpa using hv
        | i + 1 => simp at hv
      · intro hno d hd
        have h1 : x ≠ 1 := by
          rintro rfl
          exact hno 5 ⟨0, rfl, rfl⟩
        by_cases hx : x < 2
        · obtain rfl : x = 0 := by omega
          obtain rfl : _ = d := Option.some.inj hd
          exact ⟨2, rfl, rfl⟩
        · simp [C93_named, hx] at hd
      · intro _ hd
        by_cases hx : x < 2
        · simp [C93_named, hx] at hd
        · have h0 : x ≠ 0 := by omega
          have h1 : x ≠ 1 := by omega
          simp [h0, h1])
  obtain ⟨rfl, rfl⟩ := Prod.mk.inj (Option.some.inj h1)
  obtain rfl := Option.some.inj h2
  have := Option.some.inj h3
  revert this
  decide

end Marco.Props
