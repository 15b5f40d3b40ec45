import Verif.Lemmas.EquationAccessesExact
import Verif.Props.C50_CombineRanges

/-!
# C102: the accesses of an equation are the elements it reads

Matching, the algebraic loops, the scheduling, IDA and KINSOL know an equation by its accesses. Every
element that a scalar equation reads must be reached by one of them, else a dependency is missed.
Proved if the subscripts are arithmetic (without ranges and quotients) and the reductions have one
iterable, a constant range of integers; without reductions the accesses reach nothing else.

For other equations it is false. The last element of `x[2:4]` and of a range of reals is missed.
`x[2:4][1]` has an access of the wrong rank. With two iterables of a reduction the compiler reads past
the dimensions of a set (undefined behaviour); with three of them, only the first and the last one
used in the subscripts, it does not, but the first one has the range of the last one.
-/

namespace Marco.Props
open Marco Spec Marco.EqAcc Marco.Spec.EqAcc

/-- The claim, in full. -/
def C102_full : Prop := ∀ (S : Simplifier) (t : Template) (as : List Access) (p : Point), getAccesses S t = .ok as →
  p.length = t.inds.length → ∀ v x, ReadsAt t p v x → ∃ a ∈ as, Reaches a p v x

/-- Everything read is reached. -/
theorem C102_reads_partial (S : Simplifier) (t : Template) (as : List Access) (p : Point) (h : getAccesses S t = .ok as)
    (hp : p.length = t.inds.length) (hl : Simple t.inds t.lhs) (hr : Simple t.inds t.rhs) (v : Nat) (x : Point)
    (hx : ReadsAt t p v x) : ∃ a ∈ as, Reaches a p v x := by
  have henv : EnvOk t.inds p [] (atPoint t.inds p) :=
    ⟨fun id hid => by simp only [atPoint, if_pos hid], fun id hid w hw => by simp only [atPoint, if_neg hid] at hw; cases hw⟩
  obtain ⟨la, hla, h⟩ := except_bind h
  obtain ⟨ra, hra, h⟩ := except_bind h
  cases h
  obtain ⟨sel, hx | hx⟩ := hx
  · obtain ⟨a, ha, h⟩ := accesses_reached hp t.lhs (pre := []) hl henv (by simp) hla hx .nil
    exact ⟨a, by simp [ha], h⟩
  · obtain ⟨a, ha, h⟩ := accesses_reached hp t.rhs (pre := []) hr henv (by simp) hra hx .nil
    exact ⟨a, by simp [ha], h⟩

/-- Nothing else is reached, without reductions: the elements of the array variables. -/
theorem C102_exact_partial (S : Simplifier) (hS : Tidy S) (shapes : Nat → List Nat) (t : Template) (as : List Access)
    (p : Point) (h : getAccesses S t = .ok as) (hp : p.length = t.inds.length) (hl : Simple t.inds t.lhs)
    (hr : Simple t.inds t.rhs) (nl : NoRed t.lhs) (nr : NoRed t.rhs) (tl : Typed shapes t.lhs) (tr : Typed shapes t.rhs)
    (v : Nat) (x : Point) (hx : x ≠ []) (hsh : InShape (shapes v) x) :
    (∃ a ∈ as, Reaches a p v x) ↔ ReadsAt t p v x := by
  refine ⟨?_, C102_reads_partial S t as p h hp hl hr v x⟩
  rintro ⟨a, ha, hr'⟩
  obtain rfl := hr'.1
  obtain ⟨la, hla, h⟩ := except_bind h
  obtain ⟨ra, hra, h⟩ := except_bind h
  cases h
  rcases List.mem_append.1 ha with ha | ha
  · obtain ⟨rest, h⟩ := accesses_exact hS hp t.lhs (pre := []) hl nl tl hla .nil ha hx hsh hr'
    exact ⟨_, .inl h⟩
  · obtain ⟨rest, h⟩ := accesses_exact hS hp t.rhs (pre := []) hr nr tr hra .nil ha hx hsh hr'
    exact ⟨_, .inr h⟩

namespace C102_Sample

/-- The accesses reach the ranges of points from the iteration. -/
def reached (t : Template) (p : Point) : Option (List (Nat × List (List Range))) :=
  match getAccesses idSimp t with
  | .ok as => as.mapM fun a => (a.fn.mapPoint p).map fun s => (a.var, s.ranges)
  | .error _ => none

/-- `y = sum(x[2:4])`: the element 4 (3, counting from zero) is missed. -/
def slice : Template := ⟨[], .get 1 [], .op [.sub (.get 0 [5]) [.rng 1 3 1]]⟩

/-- `y = sum(x[i] for i in 1.0:3.0)`. -/
def reals : Template := ⟨[], .get 1 [], .red [9] [.rrng 0 2 1] [.sub (.get 0 [5]) [.arg 9]]⟩

/-- `y[i] = x[2:4][i]`. -/
def view : Template := ⟨[7], .sub (.get 1 [3]) [.arg 7], .sub (.sub (.get 0 [5]) [.rng 1 3 1]) [.arg 7]⟩

/-- `y = sum(x[i, j] for i in 1:2, j in 1:3)`. -/
def two : Template := ⟨[], .get 1 [], .red [8, 9] [.rng 0 1 1, .rng 0 2 1] [.sub (.get 0 [5, 5]) [.arg 8, .arg 9]]⟩

/-- `y = sum(x[i, k] for i in 1:5, j in 1:3, k in 1:2)`. -/
def three : Template := ⟨[], .get 1 [],
  .red [8, 9, 10] [.rng 0 4 1, .rng 0 2 1, .rng 0 1 1] [.sub (.get 0 [5, 5]) [.arg 8, .arg 10]]⟩

/-- `y[i] = x[i + 1, 2] * sum(z[i, j] for j in 1:3) + x[1, i]`. -/
def good : Template := ⟨[7], .sub (.get 1 [4]) [.arg 7],
  .bin .add (.bin .mul (.sub (.get 0 [5, 5]) [.bin .add (.arg 7) (.cst 1), .cst 1])
    (.red [9] [.rng 0 2 1] [.sub (.get 2 [4, 3]) [.arg 7, .arg 9]])) (.sub (.sub (.get 0 [5, 5]) [.cst 0]) [.arg 7])⟩

/-- `y[i] = x[i + 1] + x[1]`. -/
def flat : Template := ⟨[7], .sub (.get 1 [4]) [.arg 7],
  .bin .add (.sub (.get 0 [5]) [.bin .add (.arg 7) (.cst 1)]) (.sub (.get 0 [5]) [.cst 0])⟩

theorem not_reached {t : Template} {p : Point} {L : List (Nat × List (List Range))} (h : reached t p = some L) {v : Nat}
    {x : Point} (hx : x ≠ []) (hL : ∀ e ∈ L, e.1 = v → ¬ InL x e.2) :
    ∃ as, getAccesses idSimp t = .ok as ∧ ¬ ∃ a ∈ as, Reaches a p v x := by
  unfold reached at h
  split at h
  · rename_i as has
    refine ⟨as, has, ?_⟩
    rintro ⟨a, ha, hv, hr⟩
    obtain ⟨s, hs, hxs⟩ := hr hx
    clear has
    induction as generalizing L with
    | nil => simp at ha
    | cons b as ih =>
      simp only [List.mapM_cons, Option.bind_eq_bind, Option.bind_eq_some_iff, Option.map_eq_some_iff] at h
      obtain ⟨e, ⟨s', hs', rfl⟩, es, hes, h⟩ := h
      cases h
      rcases List.mem_cons.1 ha with rfl | ha
      · rw [hs] at hs'
        cases hs'
        exact hL (a.var, s.ranges) (by simp) hv hxs
      · exact ih (fun e he => hL e (by simp [he])) hes ha
  · cases h

end C102_Sample
open C102_Sample

/-- The last element of a range is missed. -/
theorem C102_full_false : ¬ C102_full := by
  intro h
  obtain ⟨as, has, hn⟩ := not_reached (t := slice) (p := []) (v := 0) (x := [3]) (L := [(1, []), (0, [[⟨1, 3⟩]])])
    (by decide +kernel) (by simp) (by simp [InL, InB, InR])
  refine hn (h _ _ _ _ has rfl _ _ ⟨[], .inr (.op (a := .sub (.get 0 [5]) [.rng 1 3 1]) (by simp)
    (.sub (sel := [2]) (sel' := [3]) ?_ (.get (.cons (by decide) .nil))))⟩)
  exact .rng (f := 1) (s := 1) (n := 3) (i := 2) rfl (by decide) (.nil [])

/-- So is the last element of an iterable of reals. -/
theorem C102_reals_missed : ∃ as, getAccesses idSimp reals = .ok as ∧ ReadsAt reals [] 0 [2] ∧
    ¬ ∃ a ∈ as, Reaches a [] 0 [2] := by
  obtain ⟨as, has, hn⟩ := not_reached (t := reals) (p := []) (v := 0) (x := [2]) (L := [(1, []), (0, [[⟨0, 2⟩]])])
    (by decide +kernel) (by simp) (by simp [InL, InB, InR])
  refine ⟨as, has, ⟨[], .inr (.red (ws := [2]) (e := .sub (.get 0 [5]) [.arg 9]) (sel' := [])
    (.cons ⟨0, 1, 3, rfl, 2, by decide, rfl⟩ .nil) (by simp)
    (.sub (sel' := [2]) (.int rfl (.nil [])) (.get (.cons (by decide) .nil))))⟩, hn⟩

/-- The access of a subscripted slice has two subscripts for one dimension. -/
theorem C102_view_missed : ∃ as, getAccesses idSimp view = .ok as ∧ ReadsAt view [0] 0 [1] ∧
    ¬ ∃ a ∈ as, Reaches a [0] 0 [1] := by
  obtain ⟨as, has, hn⟩ := not_reached (t := view) (p := [0]) (v := 0) (x := [1])
    (L := [(1, [[⟨0, 1⟩]]), (0, [[⟨1, 3⟩, ⟨0, 1⟩]])]) (by decide +kernel) (by simp) (by simp [InL, InB, InR])
  refine ⟨as, has, ⟨[], .inr (.sub (sel' := [0]) (.int rfl (.nil [])) (.sub (sel' := [1])
    (.rng (f := 1) (s := 1) (n := 3) (i := 0) rfl (by decide) (.nil [])) (.get (.cons (by decide) .nil))))⟩, hn⟩

/-- With two iterables the behaviour is undefined. -/
theorem C102_two_undefined (S : Simplifier) : getAccesses S two = .error .undefined := by
  rfl

/-- With three of them the first one has the range of the last one. -/
theorem C102_three_missed : ∃ as, getAccesses idSimp three = .ok as ∧ ReadsAt three [] 0 [4, 0] ∧
    ¬ ∃ a ∈ as, Reaches a [] 0 [4, 0] := by
  obtain ⟨as, has, hn⟩ := not_reached (t := three) (p := []) (v := 0) (x := [4, 0])
    (L := [(1, []), (0, [[⟨0, 2⟩, ⟨0, 2⟩]])]) (by decide +kernel) (by simp) (by simp [InL, InB, InR])
  refine ⟨as, has, ⟨[], .inr (.red (ws := [4, 0, 0]) (e := .sub (.get 0 [5, 5]) [.arg 8, .arg 10]) (sel' := [])
    (.cons ⟨0, 1, 5, rfl, 4, by decide, rfl⟩ (.cons ⟨0, 1, 3, rfl, 0, by decide, rfl⟩
      (.cons ⟨0, 1, 2, rfl, 0, by decide, rfl⟩ .nil))) (by simp)
    (.sub (sel' := [4, 0]) (.int rfl (.int rfl (.nil []))) (.get (.cons (by decide) (.cons (by decide) .nil)))))⟩, hn⟩

/-- The hypotheses of `C102_reads_partial` for an equation with a reduction. -/
example : (∃ as, getAccesses idSimp good = .ok as) ∧ Simple good.inds good.lhs ∧ Simple good.inds good.rhs ∧
    ReadsAt good [2] 2 [2, 1] := by
  refine ⟨⟨_, rfl⟩, by simp [good, Simple, Plain], by simp [good, Simple, SimpleL, Plain], [], .inr (.lhs (sel' := [])
    (.rhs (sel' := []) (.red (ws := [1]) (e := .sub (.get 2 [4, 3]) [.arg 7, .arg 9]) (sel' := [])
      (.cons ⟨0, 1, 3, rfl, 1, by decide, rfl⟩ .nil) (by simp)
      (.sub (sel' := [2, 1]) (.int rfl (.int rfl (.nil []))) (.get (.cons (by decide) (.cons (by decide) .nil)))))))⟩

/-- What is reached there. -/
example : reached good [2] = some [(1, [[⟨2, 3⟩]]), (0, [[⟨3, 4⟩, ⟨1, 2⟩]]), (2, [[⟨2, 3⟩, ⟨0, 3⟩]]), (0, [[⟨0, 1⟩, ⟨2, 3⟩]])] := by
  decide +kernel

/-- The hypotheses of `C102_exact_partial`. -/
example : Tidy idSimp ∧ (∃ as, getAccesses idSimp flat = .ok as) ∧ Simple flat.inds flat.lhs ∧ Simple flat.inds flat.rhs ∧
    NoRed flat.lhs ∧ NoRed flat.rhs ∧ Typed (fun v => if v = 0 then [5] else [4]) flat.lhs ∧
    Typed (fun v => if v = 0 then [5] else [4]) flat.rhs :=
  ⟨idSimp_tidy, ⟨_, rfl⟩, by simp [flat, Simple, Plain], by simp [flat, Simple, Plain], by simp [flat, NoRed],
    by simp [flat, NoRed], by simp [flat, Typed], by simp [flat, Typed]⟩

/-- What is reached there. -/
example : reached flat [2] = some [(1, [[⟨2, 3⟩]]), (0, [[⟨3, 4⟩]]), (0, [[⟨0, 1⟩]])] := by
  decide +kernel

end Marco.Props
