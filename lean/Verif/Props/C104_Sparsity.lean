import Verif.Lemmas.Sparsity
import Verif.Props.C102_EquationAccesses
import Verif.Props.C23_InverseMap

/-!
# C104: the solvers are told every element that an equation reads

With reduced derivatives IDA and KINSOL compute only those entries of the Jacobian matrix that the
access functions lead to. If an equation reads an element of a variable of the solver at an iteration,
one of the access functions added for the variable must lead from the iteration to the element.

Proved for the equations of C102, for KINSOL whenever it is defined. It is undefined if the equation
has a reduction over the elements of a variable of KINSOL. IDA is not told the elements that a scalar
equation reads by a reduction with arithmetic on its induction: the image of the iteration space is
that of the empty set, so the entries are taken to be zero.
-/

namespace Marco.Props
open Marco Spec IndexSet Marco.EqAcc Marco.Spec.EqAcc Marco.Sparsity Marco.Spec.Sparsity

/-- The claim for IDA, in full. -/
def C104_full : Prop := ∀ (S : Simplifier) (s : Solver) (t : Template) (space : IndexSet) (maps : List (Nat × AffineMap)),
  SpaceOk t space → ida S s t space = .ok maps → ∀ p, Iteration t space p → ∀ v x w, s.has v = true → Target s v w →
    ReadsAt t p v x → padded p ∈ indices space ∧ Told maps w p x

theorem C104_iteration {t : Template} {space : IndexSet} {p : Point} (hs : SpaceOk t space) (hp : Iteration t space p) :
    p.length = t.inds.length ∧ (t.inds ≠ [] → SetOk t.inds.length space ∧ Has space p) ∧ padded p ∈ indices space := by
  unfold SpaceOk at hs
  unfold Iteration at hp
  split_ifs at hs hp with h
  · refine ⟨by simp [hp, h], fun h' => absurd h h', ?_⟩
    rw [hs, hp]
    decide
  · refine ⟨has_length hs hp, fun _ => ⟨hs, hp⟩, ?_⟩
    have he : space.isEmpty = false := by
      unfold Has IndexSet.ranges at hp
      unfold IndexSet.isEmpty
      cases hr : space.root with
      | none => rw [hr] at hp; simp [InL] at hp
      | some r => rfl
    have hne : p ≠ [] := by
      have := has_length hs hp
      rintro rfl
      exact h (List.length_eq_zero_iff.1 this.symm)
    simp only [indices, he, padded, if_neg hne]
    exact mem_points.2 hp

theorem C104_denoted {S : Simplifier} {t : Template} {as : List Access} {p : Point} (h : getAccesses S t = .ok as)
    (hp : p.length = t.inds.length) (hl : Simple t.inds t.lhs) (hr : Simple t.inds t.rhs) {v : Nat} {x : Point}
    (hx : ReadsAt t p v x) : ∃ a ∈ as, Denoted S t.inds p a v x := by
  have henv : EnvOk t.inds p [] (atPoint t.inds p) :=
    ⟨fun id hid => by simp only [atPoint, if_pos hid], fun id hid w hw => by simp only [atPoint, if_neg hid] at hw; cases hw⟩
  obtain ⟨la, hla, h⟩ := except_bind h
  obtain ⟨ra, hra, h⟩ := except_bind h
  cases h
  obtain ⟨sel, hx | hx⟩ := hx
  · obtain ⟨a, ha, h⟩ := accesses_denoted hp t.lhs (pre := []) hl henv (by simp) hla hx .nil
    exact ⟨a, by simp [ha], h⟩
  · obtain ⟨a, ha, h⟩ := accesses_denoted hp t.rhs (pre := []) hr henv (by simp) hra hx .nil
    exact ⟨a, by simp [ha], h⟩

/-- IDA is told every element read, if a scalar equation has no generic access. -/
theorem C104_ida_partial (S : Simplifier) (s : Solver) (t : Template) (space : IndexSet) (maps : List (Nat × AffineMap))
    (hs : SpaceOk t space) (h : ida S s t space = .ok maps) (hl : Simple t.inds t.lhs) (hr : Simple t.inds t.rhs)
    (h0 : t.inds = [] → ∀ as, getAccesses S t = .ok as → ∀ a ∈ as, ∀ n rs, a.fn ≠ .generic n rs) (p : Point)
    (hp : Iteration t space p) (v : Nat) (x : Point) (w : Nat) (hv : s.has v = true) (hw : Target s v w)
    (hx : ReadsAt t p v x) : padded p ∈ indices space ∧ Told maps w p x := by
  obtain ⟨hlen, hsp, hin⟩ := C104_iteration hs hp
  refine ⟨hin, ?_⟩
  obtain ⟨as, has, h⟩ := except_bind h
  obtain ⟨a, ha, hd⟩ := C104_denoted has hlen hl hr hx
  have hvar : s.variable a.var = w := by
    rw [hd.1]
    unfold Solver.variable
    rcases hw with hw | ⟨hw, rfl⟩ <;> rw [hw]
  obtain ⟨t1, t2⟩ := (tellIda_spec as h).2 a ha (by rw [hd.1]; exact hv)
  rw [hvar] at t1 t2
  cases haff : a.fn.isAffine with
  | true => exact ⟨_, t1 haff, denoted_affine hlen hd haff⟩
  | false =>
    obtain ⟨T, hT, hm⟩ := t2 haff
    obtain ⟨hT1, hT2⟩ := denoted_image hlen hd haff hsp (fun hi => h0 hi as has a ha) hT
    exact ⟨_, hm x hT1, accessFunction_const (by rw [hT2, hlen])⟩

/-- KINSOL is told every element read. -/
theorem C104_kinsol_partial (S : Simplifier) (s : Solver) (t : Template) (space : IndexSet) (maps : List (Nat × AffineMap))
    (hs : SpaceOk t space) (h : kinsol S s t = .ok maps) (hl : Simple t.inds t.lhs) (hr : Simple t.inds t.rhs) (p : Point)
    (hp : Iteration t space p) (v : Nat) (x : Point) (hv : s.has v = true) (hx : ReadsAt t p v x) :
    padded p ∈ indices space ∧ Told maps v p x := by
  obtain ⟨hlen, -, hin⟩ := C104_iteration hs hp
  refine ⟨hin, ?_⟩
  obtain ⟨as, has, h⟩ := except_bind h
  obtain ⟨a, ha, hd⟩ := C104_denoted has hlen hl hr hx
  obtain ⟨t1, t2⟩ := (tellKinsol_spec as h).2 a ha (by rw [hd.1]; exact hv)
  rw [hd.1] at t2
  exact ⟨_, t2, denoted_affine hlen hd t1⟩

/-- The operations created for an expression compute its value, if no dividend is negative. -/
theorem C104_operations_partial (e : AExpr) (p : Point) (v : Int) (hv : e.eval p = some v) (hd : DividendsOk e p) :
    materialize e p = some v := by
  induction e generalizing v with
  | const c => exact hv
  | dim d => exact hv
  | add a b iha ihb =>
    simp only [AExpr.eval, Option.bind_eq_bind, Option.bind_eq_some_iff] at hv
    obtain ⟨x, hx, y, hy, h⟩ := hv
    simp only [materialize, iha x hx hd.1, ihb y hy hd.2, Option.bind_eq_bind, Option.bind_some, h]
  | mul a b iha ihb =>
    simp only [AExpr.eval, Option.bind_eq_bind, Option.bind_eq_some_iff] at hv
    obtain ⟨x, hx, y, hy, h⟩ := hv
    simp only [materialize, iha x hx hd.1, ihb y hy hd.2, Option.bind_eq_bind, Option.bind_some, h]
  | floorDiv a b iha ihb =>
    simp only [AExpr.eval, Option.bind_eq_bind, Option.bind_eq_some_iff] at hv
    obtain ⟨x, hx, y, hy, h⟩ := hv
    split_ifs at h with h0
    rw [Int.fdiv_eq_tdiv_of_nonneg (hd.2.2 x hx) (by omega)] at h
    simp only [materialize, iha x hx hd.1, ihb y hy hd.2.1, Option.bind_eq_bind, Option.bind_some, h,
      if_neg (show y ≠ 0 by omega)]

/-- Otherwise they need not: the quotient is rounded towards zero. -/
theorem C104_rounding_wrong : (AExpr.floorDiv (.dim 0) (.const 2)).eval [-1] = some (-1) ∧
    materialize (.floorDiv (.dim 0) (.const 2)) [-1] = some 0 := by decide

/-- The hypotheses: `(i + 3) / 2` at 4. -/
example : (AExpr.floorDiv (.add (.dim 0) (.const 3)) (.const 2)).eval [4] = some 3 ∧
    DividendsOk (.floorDiv (.add (.dim 0) (.const 3)) (.const 2)) [4] :=
  ⟨by decide, ⟨trivial, trivial⟩, trivial, by intro x hx; cases hx; decide⟩

namespace C104_Sample

/-- The variables 0 and 1, the variable 2 is the derivative of the variable 0. -/
def solver : Solver := ⟨fun v => v ≤ 2, fun v => if v = 2 then some 0 else none⟩

/-- `y = sum(x[2 * j] for j in 1:3)`. -/
def doubled : Template := ⟨[], .get 1 [],
  .red [9] [.rng 0 2 1] [.sub (.get 0 [6]) [.bin .mul (.cst 2) (.arg 9)]]⟩

/-- `y = sum(x[j] for j in 1:3)`. -/
def summed : Template := ⟨[], .get 1 [], .red [9] [.rng 0 2 1] [.sub (.get 0 [6]) [.arg 9]]⟩

/-- `y[i] = der(x[i + 1]) + sum(x[i + j] for j in 1:2)`, and `y[i] = der(x[i + 1]) + x[1]`. -/
def good : Template := ⟨[7], .sub (.get 1 [4]) [.arg 7],
  .bin .add (.sub (.get 2 [6]) [.bin .add (.arg 7) (.cst 1)])
    (.red [9] [.rng 0 1 1] [.sub (.get 0 [6]) [.bin .add (.arg 7) (.arg 9)]])⟩
def flat : Template := ⟨[7], .sub (.get 1 [4]) [.arg 7],
  .bin .add (.sub (.get 2 [6]) [.bin .add (.arg 7) (.cst 1)]) (.sub (.get 0 [6]) [.cst 0])⟩

/-- The iterations 0, 1, 2. -/
def space : IndexSet := IndexSet.ofRanges [[⟨0, 3⟩]]

end C104_Sample
open C104_Sample

/-- A scalar equation with a reduction: IDA is told nothing about `x`. -/
theorem C104_reduction_missed : ida idSimp solver doubled IndexSet.empty = .ok [(1, ⟨0, []⟩)] ∧
    Simple doubled.inds doubled.lhs ∧ Simple doubled.inds doubled.rhs ∧ ReadsAt doubled [] 0 [2] := by
  refine ⟨by decide +kernel, by simp [doubled, Simple], by simp [doubled, Simple, SimpleL, Plain], [],
    .inr (.red (ws := [1]) (e := .sub (.get 0 [6]) [.bin .mul (.cst 2) (.arg 9)]) (sel' := [])
      (.cons ⟨0, 1, 3, rfl, 1, by decide, rfl⟩ .nil) (by simp)
      (.sub (sel' := [2]) (.int rfl (.nil [])) (.get (.cons (by decide) .nil))))⟩

/-- So the claim is false. -/
theorem C104_full_false : ¬ C104_full := by
  intro h
  obtain ⟨h1, -, -, h2⟩ := C104_reduction_missed
  obtain ⟨-, m, hm, -⟩ := h _ _ _ _ _ (by simp [SpaceOk, doubled]) h1 [] (by simp [Iteration, doubled]) 0 [2] 0 rfl
    (.inr ⟨rfl, rfl⟩) h2
  simp at hm

/-- KINSOL with a reduction over the elements of its variable: undefined behaviour. -/
theorem C104_kinsol_undefined : kinsol idSimp solver summed = .error .undefined := by
  decide +kernel

/-- The hypotheses of `C104_ida_partial` for an equation with a derivative and a reduction. -/
example : SpaceOk good space ∧ (∃ maps, ida idSimp solver good space = .ok maps ∧
      (0, (⟨1, [.add (.dim 0) (.const 1)]⟩ : AffineMap)) ∈ maps ∧ (0, (⟨1, [.const 3]⟩ : AffineMap)) ∈ maps) ∧
    Simple good.inds good.lhs ∧ Simple good.inds good.rhs ∧ Iteration good space [2] ∧ ReadsAt good [2] 0 [3] ∧
    Target solver 2 0 := by
  refine ⟨?_, ⟨_, rfl, by decide +kernel, by decide +kernel⟩, by simp [good, Simple, Plain], by simp [good, Simple, SimpleL, Plain], ?_,
    ⟨[], .inr (.rhs (sel' := []) (.red (ws := [1]) (e := .sub (.get 0 [6]) [.bin .add (.arg 7) (.arg 9)]) (sel' := [])
      (.cons ⟨0, 1, 2, rfl, 1, by decide, rfl⟩ .nil) (by simp)
      (.sub (sel' := [3]) (.int rfl (.nil [])) (.get (.cons (by decide) .nil)))))⟩, .inl rfl⟩
  · simp only [SpaceOk, good]
    exact (interval_ok 0 3 (by decide)).1
  · simp only [Iteration, good]
    exact ((interval_ok 0 3 (by decide)).2 [2]).2 ⟨2, rfl, by decide, by decide⟩

/-- The hypotheses of `C104_kinsol_partial`. -/
example : SpaceOk flat space ∧ (∃ maps, kinsol idSimp ⟨fun v => v ≤ 2, fun _ => none⟩ flat = .ok maps ∧
      (2, (⟨1, [.add (.dim 0) (.const 1)]⟩ : AffineMap)) ∈ maps ∧ (0, (⟨1, [.const 0]⟩ : AffineMap)) ∈ maps) ∧
    Simple flat.inds flat.lhs ∧ Simple flat.inds flat.rhs := by
  refine ⟨?_, ⟨_, rfl, by decide +kernel, by decide +kernel⟩, by simp [flat, Simple, Plain], by simp [flat, Simple, Plain]⟩
  simp only [SpaceOk, flat]
  exact (interval_ok 0 3 (by decide)).1

/-- A scalar equation with a sum is told to IDA. -/
example : ida idSimp solver summed IndexSet.empty =
    .ok [(1, ⟨0, []⟩), (0, ⟨0, [.const 0]⟩), (0, ⟨0, [.const 1]⟩), (0, ⟨0, [.const 2]⟩)] := by
  decide +kernel

end Marco.Props
