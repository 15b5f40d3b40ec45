import Verif.Lemmas.ExprParser
import Verif.Spec.Values

/-!
# Lemmas about the lowering of operations
-/

namespace Marco.Parse
open Marco.Spec

section
variable {V : Type} (A : Alg V) (leaf : Ast → V)

/-- There is a value for each expression. -/
theorem values_length {A : Alg V} {leaf : Ast → V} {es : List Ast} : ∀ {vs : List V}, values A leaf es = some vs →
    es.length = vs.length := by
  induction es with
  | nil => rintro vs h; simp only [values, Option.some.injEq] at h; simp [← h]
  | cons e es ih =>
    intro vs h
    simp only [values, Option.bind_eq_some_iff, Option.map_eq_some_iff] at h
    obtain ⟨w, _, ws, h2, rfl⟩ := h
    simp [ih h2]

/-- The operators, given the values of the operands. -/
theorem lowerOp_value {k : Op} {xs : List Ir} {vs : List V} {v : V} (hx : irValues A leaf xs = some vs)
    (hv : apply A k vs = some v) (hk : (k ≠ .land ∧ k ≠ .lor) ∨ vs.length = 2) :
    ∃ x, lowerOp k xs = .ok x ∧ irValue A leaf x = some v := by
  have hl : ∀ {xs : List Ir} {vs : List V}, irValues A leaf xs = some vs → xs.length = vs.length := by
    intro xs
    induction xs with
    | nil => rintro vs h; simp only [irValues, Option.some.injEq] at h; simp [← h]
    | cons x xs ih =>
      intro vs h
      simp only [irValues, Option.bind_eq_some_iff, Option.map_eq_some_iff] at h
      obtain ⟨w, _, ws, h2, rfl⟩ := h
      simp [ih h2]
  match k, vs, hv, hk with
  | .negate, [_], hv, _ | .lnot, [_], hv, _ =>
    match xs, hl hx with
    | [x], _ => exact ⟨_, rfl, by simpa [irValue, hx, apply, irApply] using hv⟩
  | .add, [_, _], hv, _ | .addEW, [_, _], hv, _ | .subtract, [_, _], hv, _ | .subtractEW, [_, _], hv, _
  | .multiply, [_, _], hv, _ | .multiplyEW, [_, _], hv, _ | .divide, [_, _], hv, _
  | .divideEW, [_, _], hv, _ | .powerOf, [_, _], hv, _ | .powerOfEW, [_, _], hv, _
  | .greater, [_, _], hv, _ | .greaterEqual, [_, _], hv, _ | .equal, [_, _], hv, _
  | .different, [_, _], hv, _ | .lessEqual, [_, _], hv, _ | .less, [_, _], hv, _
  | .land, [_, _], hv, _ | .lor, [_, _], hv, _ =>
    match xs, hl hx with
    | [x, y], _ => exact ⟨_, rfl, by simpa [irValue, hx, apply, irApply] using hv⟩
  | .ifelse, [_, _, _], hv, _ =>
    match xs, hl hx with
    | [x, y, z], _ => exact ⟨_, rfl, by simpa [irValue, hx, apply, irApply] using hv⟩
  | .range, [_, _], hv, _ =>
    match xs, hl hx with
    | [x, y], _ =>
      refine ⟨_, rfl, ?_⟩
      simp only [irValues, Option.bind_eq_some_iff, Option.map_eq_some_iff, Option.some.injEq] at hx
      obtain ⟨a, ha, _, ⟨b, hb, _, rfl, rfl⟩, h3⟩ := hx
      simp only [List.cons.injEq, and_true] at h3
      obtain ⟨rfl, rfl⟩ := h3
      simpa [irValue, irValues, apply, irApply, ha, hb] using hv
  | .range, [_, _, _], hv, _ =>
    match xs, hl hx with
    | [x, y, z], _ =>
      refine ⟨_, rfl, ?_⟩
      simp only [irValues, Option.bind_eq_some_iff, Option.map_eq_some_iff, Option.some.injEq] at hx
      obtain ⟨a, ha, _, ⟨b, hb, _, ⟨c, hc, _, rfl, rfl⟩, rfl⟩, h3⟩ := hx
      simp only [List.cons.injEq, and_true] at h3
      obtain ⟨rfl, rfl, rfl⟩ := h3
      simpa [irValue, irValues, apply, irApply, ha, hb, hc] using hv
  | .subscription, _ :: _, hv, _ =>
    match xs, hl hx with
    | x :: is, _ => exact ⟨_, rfl, by simpa [irValue, hx, apply, irApply] using hv⟩

mutual
theorem lower_value : ∀ (e : Ast) (v : V), value A leaf e = some v → noChain e = true →
    ∃ x, lower e = .ok x ∧ irValue A leaf x = some v
  | .op k args, v, hv, hc => by
    simp only [value, Option.bind_eq_some_iff] at hv
    obtain ⟨vs, h1, h2⟩ := hv
    simp only [noChain, Bool.and_eq_true] at hc
    obtain ⟨xs, h3, h4⟩ := lowerArgs_value args vs h1 hc.2
    have hk : (k ≠ .land ∧ k ≠ .lor) ∨ vs.length = 2 := by
      rw [← values_length h1]
      simpa using hc.1
    obtain ⟨x, h5, h6⟩ := lowerOp_value A leaf h4 h2 hk
    exact ⟨x, by simp [lower, h3, h5], h6⟩
  | .sub e, v, hv, hc => by
    simp only [value, Option.map_eq_some_iff] at hv
    obtain ⟨w, h1, rfl⟩ := hv
    obtain ⟨x, h2, h3⟩ := lower_value e w h1 (by simpa [noChain] using hc)
    exact ⟨.op .addOp [x, .index (-1)], by simp only [lower, h2], by simp [irValue, irValues, irApply, h3]⟩
  | .subAll, v, hv, _ => ⟨_, rfl, by simpa [value, irValue, irValues, irApply] using hv⟩
  | .int _, v, hv, _ | .real _, v, hv, _ | .str _, v, hv, _ | .bool _, v, hv, _ | .tuple _, v, hv, _
  | .array _, v, hv, _ | .generator _ _, v, hv, _ | .call _ _, v, hv, _ | .ref _ _, v, hv, _
  | .dummy, v, hv, _ | .entry _ _, v, hv, _ | .argExpr _, v, hv, _ | .argNamed _ _, v, hv, _
  | .argReduction _ _, v, hv, _ | .forIndex _, v, hv, _ | .forIndexIn _ _, v, hv, _ =>
    ⟨_, rfl, by simpa [value, irValue] using hv⟩
theorem lowerArgs_value : ∀ (es : List Ast) (vs : List V), values A leaf es = some vs →
    noChains es = true → ∃ xs, lowerArgs es = .ok xs ∧ irValues A leaf xs = some vs
  | [], vs, hv, _ => ⟨[], rfl, by simpa [values, irValues] using hv⟩
  | e :: es, vs, hv, hc => by
    simp only [values, Option.bind_eq_some_iff, Option.map_eq_some_iff] at hv
    obtain ⟨v, h1, ws, h2, rfl⟩ := hv
    simp only [noChains, Bool.and_eq_true] at hc
    obtain ⟨x, h3, h4⟩ := lower_value e v h1 hc.1
    obtain ⟨xs, h5, h6⟩ := lowerArgs_value es ws h2 hc.2
    exact ⟨x :: xs, by simp [lowerArgs, h3, h5], by simp [irValues, h4, h6]⟩
end

/-- The value exists. -/
def HasValue : (s : Sym) → s.Val → Prop
  | .ors, es | .ands, es => ∃ v vs, values A leaf es = some (v :: vs)
  | .outputs, es | .outs, es | .exprs, es | .path, es | .subscripts, es | .subs, es | .callArgs, es
  | .args, es | .nonFirst, es | .named, es | .forIndices, es => ∃ vs, values A leaf es = some vs
  | .expr, e | .elses, e | .simple, e | .logical, e | .lterm, e | .lfactor, e | .relation, e
  | .arith, e | .term, e | .factor, e | .primary, e | .group, e | .closed, e | .cref, e | .entry, e
  | .sub, e | .namedArg, e | .forIndex, e => ∃ v, value A leaf e = some v

/-- Every sentence of the grammar has a value. -/
theorem der_value {d : Dialect} {s : Sym} {ts : List Tok} {v : s.Val} (h : Der d s ts v) :
    HasValue A leaf s v := by
  induction h with
  | rel h _ _ ih1 ih2 =>
    obtain ⟨v1, h1⟩ := ih1
    obtain ⟨v2, h2⟩ := ih2
    simp only [relToks, List.mem_cons, Prod.mk.injEq, List.not_mem_nil, or_false] at h
    rcases h with h | h | h | h | h | h <;> obtain ⟨_, rfl⟩ := h <;>
      exact ⟨_, by simp only [value, values, h1, h2, Option.bind_some, Option.map_some, apply]; rfl⟩
  | add h _ _ ih1 ih2 =>
    obtain ⟨v1, h1⟩ := ih1
    obtain ⟨v2, h2⟩ := ih2
    simp only [addToks, List.mem_cons, Prod.mk.injEq, List.not_mem_nil, or_false] at h
    rcases h with h | h | h | h <;> obtain ⟨_, rfl⟩ := h <;>
      exact ⟨_, by simp only [value, values, h1, h2, Option.bind_some, Option.map_some, apply]; rfl⟩
  | mul h _ _ ih1 ih2 =>
    obtain ⟨v1, h1⟩ := ih1
    obtain ⟨v2, h2⟩ := ih2
    simp only [mulToks, List.mem_cons, Prod.mk.injEq, List.not_mem_nil, or_false] at h
    rcases h with h | h | h | h <;> obtain ⟨_, rfl⟩ := h <;>
      exact ⟨_, by simp only [value, values, h1, h2, Option.bind_some, Option.map_some, apply]; rfl⟩
  | pow h _ _ ih1 ih2 =>
    obtain ⟨v1, h1⟩ := ih1
    obtain ⟨v2, h2⟩ := ih2
    simp only [powToks, List.mem_cons, Prod.mk.injEq, List.not_mem_nil, or_false] at h
    rcases h with h | h <;> obtain ⟨_, rfl⟩ := h <;>
      exact ⟨_, by simp only [value, values, h1, h2, Option.bind_some, Option.map_some, apply]; rfl⟩
  | powChain _ h _ _ ih1 ih2 =>
    obtain ⟨v1, h1⟩ := ih1
    obtain ⟨v2, h2⟩ := ih2
    simp only [powToks, List.mem_cons, Prod.mk.injEq, List.not_mem_nil, or_false] at h
    rcases h with h | h <;> obtain ⟨_, rfl⟩ := h <;>
      exact ⟨_, by simp only [value, values, h1, h2, Option.bind_some, Option.map_some, apply]; rfl⟩
  | or _ _ ih =>
    obtain ⟨v, vs, h1⟩ := ih
    exact ⟨_, by simp only [value, h1, Option.bind_some, apply]; rfl⟩
  | and _ _ ih =>
    obtain ⟨v, vs, h1⟩ := ih
    exact ⟨_, by simp only [value, h1, Option.bind_some, apply]; rfl⟩
  | paren _ ih =>
    obtain ⟨vs, h1⟩ := ih
    simp only [values, Option.bind_eq_some_iff] at h1
    obtain ⟨v, h1, -⟩ := h1
    exact ⟨v, h1⟩
  | orsCons _ _ ih1 ih2 =>
    obtain ⟨v, h1⟩ := ih1
    obtain ⟨w, ws, h2⟩ := ih2
    exact ⟨_, _, by simp only [values, h1, h2, Option.bind_some, Option.map_some]; rfl⟩
  | andsCons _ _ ih1 ih2 =>
    obtain ⟨v, h1⟩ := ih1
    obtain ⟨w, ws, h2⟩ := ih2
    exact ⟨_, _, by simp only [values, h1, h2, Option.bind_some, Option.map_some]; rfl⟩
  | orsOne _ ih =>
    obtain ⟨v, h1⟩ := ih
    exact ⟨_, _, by simp only [values, h1, Option.bind_some, Option.map_some]; rfl⟩
  | andsOne _ ih =>
    obtain ⟨v, h1⟩ := ih
    exact ⟨_, _, by simp only [values, h1, Option.bind_some, Option.map_some]; rfl⟩
  | _ =>
    first
      | assumption
      | exact ⟨_, by simp only [values, value, apply, Option.bind_some, Option.map_some]; rfl⟩
      | (rename_i ih
         obtain ⟨v, h1⟩ := ih
         exact ⟨_, by simp only [values, value, h1, apply, Option.bind_some, Option.map_some]; rfl⟩)
      | (rename_i ih1 ih2
         obtain ⟨v, h1⟩ := ih1
         obtain ⟨w, h2⟩ := ih2
         exact ⟨_, by simp only [values, value, h1, h2, apply, Option.bind_some, Option.map_some]; rfl⟩)
      | (rename_i ih1 ih2 ih3
         obtain ⟨v, h1⟩ := ih1
         obtain ⟨w, h2⟩ := ih2
         obtain ⟨u, h3⟩ := ih3
         exact ⟨_, by simp only [values, value, h1, h2, h3, apply, Option.bind_some, Option.map_some]; rfl⟩)

end

end Marco.Parse
