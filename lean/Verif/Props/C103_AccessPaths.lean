import Verif.Lemmas.EquationPaths
import Verif.Props.C50_CombineRanges

/-!
# C103: the path of an access leads to it

Each access of an equation has a path; matched equations store the path of the matched access, and the access and the
value are searched for with it later (`getAccessAtPath`, `getValueAtPath`). No two accesses have the same path. Proved for
equations without reductions in which only variables are subscripted: the path leads to the subscripted variable, and the
access found there is the same; and at a value with several accesses none is found.

Otherwise it is false. Within a reduction no access is found. Subscriptions add nothing to the path, so the path of
`y` in `(x + y)[i]` leads to `i`, and the path of `x` in `Real(x)[i]` leads to the whole array.
-/

namespace Marco.Props
open Marco Spec Marco.EqAcc Marco.Spec.EqAcc

/-- The path leads to the access, and to a subscription of its variable. -/
def C103_claim (S : Simplifier) (t : Template) (a : Access) : Prop :=
  getAccessAtPath S t a.path = some a ∧ ∃ e, t.valueAtPath a.path = some e ∧ root e = some a.var

/-- The claim, in full. -/
def C103_full : Prop := ∀ (S : Simplifier) (t : Template) (as : List Access), getAccesses S t = .ok as →
  (as.map (·.path)).Nodup ∧ ∀ a ∈ as, C103_claim S t a

/-- The paths are different. -/
theorem C103_distinct (S : Simplifier) (t : Template) (as : List Access) (h : getAccesses S t = .ok as) :
    (as.map (·.path)).Nodup := by
  obtain ⟨la, hla, h⟩ := except_bind h
  obtain ⟨ra, hra, h⟩ := except_bind h
  cases h
  obtain ⟨h1, h2⟩ := accesses_paths t.lhs hla
  obtain ⟨i1, i2⟩ := accesses_paths t.rhs hra
  rw [List.map_append, List.nodup_append]
  refine ⟨h1, i1, ?_⟩
  intro x hx y hy hxy
  subst hxy
  obtain ⟨a, ha, rfl⟩ := List.mem_map.1 hx
  obtain ⟨b, hb, hab⟩ := List.mem_map.1 hy
  obtain ⟨u, hu⟩ := h2 a ha
  obtain ⟨w, hw⟩ := i2 b hb
  rw [hab, ← hu] at hw
  simp at hw

/-- The path leads to the access, without reductions and if only variables are subscripted. -/
theorem C103_path_partial (S : Simplifier) (t : Template) (as : List Access) (h : getAccesses S t = .ok as)
    (hl : Chained t.lhs) (hr : Chained t.rhs) (a : Access) (ha : a ∈ as) : C103_claim S t a := by
  obtain ⟨la, hla, h⟩ := except_bind h
  obtain ⟨ra, hra, h⟩ := except_bind h
  cases h
  rcases List.mem_append.1 ha with ha | ha
  · obtain ⟨rest, e, h1, h2, h3, h4⟩ := accesses_lead t.lhs hl hla a ha
    have hv : t.valueAtPath a.path = some e := by rw [h1]; exact h2
    exact ⟨by simp [getAccessAtPath, hv, searchAccesses, h4], e, hv, h3⟩
  · obtain ⟨rest, e, h1, h2, h3, h4⟩ := accesses_lead t.rhs hr hra a ha
    have hv : t.valueAtPath a.path = some e := by rw [h1]; exact h2
    exact ⟨by simp [getAccessAtPath, hv, searchAccesses, h4], e, hv, h3⟩

/-- A path that leads to a value with several accesses gives none of them. -/
theorem C103_several_partial (S : Simplifier) (t : Template) (as : List Access) (h : getAccesses S t = .ok as)
    (hl : Chained t.lhs) (hr : Chained t.rhs) (a b : Access) (ha : a ∈ as) (hb : b ∈ as) (hab : a ≠ b) (path : List Nat)
    (h2 : 2 ≤ path.length) (hpa : path <+: a.path) (hpb : path <+: b.path) : getAccessAtPath S t path = none := by
  obtain ⟨la, hla, h⟩ := except_bind h
  obtain ⟨ra, hra, h⟩ := except_bind h
  cases h
  have key : ∀ c ∈ la ++ ra, path <+: c.path → ∃ e as', t.valueAtPath path = some e ∧
      accesses S t.inds e [] [] path = .ok as' ∧ c ∈ as' := by
    intro c hc hp
    have one : ∀ x y : Nat, [x, y] <+: c.path → ∃ r, path = [x, y] ++ r := by
      intro x y hxy
      obtain ⟨r, hr⟩ := List.prefix_of_prefix_length_le hxy hp h2
      exact ⟨r, hr.symm⟩
    rcases List.mem_append.1 hc with hc | hc
    · obtain ⟨r, rfl⟩ := one _ _ ((accesses_paths t.lhs hla).2 c hc)
      exact accesses_below t.lhs hl hla c hc r hp
    · obtain ⟨r, rfl⟩ := one _ _ ((accesses_paths t.rhs hra).2 c hc)
      exact accesses_below t.rhs hr hra c hc r hp
  obtain ⟨e, l, h1, h3, h4⟩ := key a ha hpa
  obtain ⟨e', l', i1, i3, i4⟩ := key b hb hpb
  rw [h1] at i1
  cases i1
  rw [h3] at i3
  cases i3
  simp only [getAccessAtPath, h1, Option.bind_eq_bind, Option.bind_some, searchAccesses, h3]
  match l, h4, i4 with
  | [x], h4, i4 =>
    rw [List.mem_singleton] at h4 i4
    exact absurd (h4.trans i4.symm) hab
  | _ :: _ :: _, _, _ => rfl

namespace C103_Sample

/-- `y = sum(x[j] for j in 1:3)`. -/
def sum : Template := ⟨[], .get 1 [], .red [9] [.rng 0 2 1] [.sub (.get 0 [5]) [.arg 9]]⟩

/-- `z[i] = (x + y)[i]`. -/
def ofSum : Template := ⟨[7], .sub (.get 2 [5]) [.arg 7], .sub (.bin .add (.get 0 [5]) (.get 1 [5])) [.arg 7]⟩

/-- `z[i] = Real(x)[i]`. -/
def ofCast : Template := ⟨[7], .sub (.get 2 [5]) [.arg 7], .sub (.cast (.get 0 [5])) [.arg 7]⟩

/-- `y[i] = -x[i + 1, 2] * x[1, i]`. -/
def good : Template := ⟨[7], .sub (.get 1 [4]) [.arg 7],
  .bin .mul (.neg (.sub (.get 0 [5, 5]) [.bin .add (.arg 7) (.cst 1), .cst 1])) (.sub (.sub (.get 0 [5, 5]) [.cst 0]) [.arg 7])⟩

/-- The paths found. -/
def paths (t : Template) : Option (List (List Nat)) :=
  match getAccesses idSimp t with
  | .ok as => some (as.map (·.path))
  | .error _ => none

end C103_Sample
open C103_Sample

/-- The access to `x` has a path, at which none is found. -/
theorem C103_full_false : ¬ C103_full := by
  intro h
  obtain ⟨as, has⟩ : ∃ as, getAccesses idSimp sum = .ok as := ⟨_, rfl⟩
  have hp : paths sum = some [[0, 0], [1, 0, 0]] := rfl
  simp only [paths, has, Option.some.injEq] at hp
  obtain ⟨a, ha, hap⟩ := List.mem_map.1 (show [1, 0, 0] ∈ as.map (·.path) by rw [hp]; simp)
  have := ((h _ _ _ has).2 a ha).1
  rw [hap] at this
  have hn : getAccessAtPath idSimp sum [1, 0, 0] = none := rfl
  rw [hn] at this
  cases this

/-- The path of the second operand of a subscripted sum leads to the subscript. -/
theorem C103_sum_wrong : paths ofSum = some [[0, 0], [1, 0, 0], [1, 0, 1]] ∧
    ofSum.valueAtPath [1, 0, 1] = some (.arg 7) ∧ getAccessAtPath idSimp ofSum [1, 0, 1] = none :=
  ⟨rfl, rfl, rfl⟩

/-- The path of a subscripted cast leads to another access, to the whole array. -/
theorem C103_cast_wrong : paths ofCast = some [[0, 0], [1, 0, 0]] ∧
    (getAccessAtPath idSimp ofCast [1, 0, 0]).map (·.path) = some [1, 0, 0, 0] ∧
    ((getAccessAtPath idSimp ofCast [1, 0, 0]).bind (·.fn.mapPoint [2])).map (·.ranges) = some [[⟨0, 5⟩]] :=
  ⟨rfl, rfl, by decide +kernel⟩

/-- The hypotheses of `C103_path_partial`. -/
example : paths good = some [[0, 0], [1, 0, 0, 0], [1, 0, 1]] ∧ Chained good.lhs ∧ Chained good.rhs :=
  ⟨rfl, trivial, trivial, trivial⟩

/-- The hypotheses of `C103_several_partial`: the two accesses of the product. -/
example : [1, 0] <+: [1, 0, 0, 0] ∧ [1, 0] <+: [1, 0, 1] ∧ getAccessAtPath idSimp good [1, 0] = none :=
  ⟨⟨[0, 0], rfl⟩, ⟨[1], rfl⟩, rfl⟩

end Marco.Props
