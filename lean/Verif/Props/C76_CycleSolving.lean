import Verif.Lemmas.CycleSolving

/-!
# C76: solving the cycles of an SCC by substitution keeps the solutions

`SCCSolvingBySubstitution` takes a cycle of equations, each of which reads a variable written by the
next one, and replaces in the first equation the access by the explicit form of the second, in which
the access has been replaced by the explicit form of the third, and so on. The iterations of the first
equation that do not take part in the cycle are kept by a clone.

Proved, for any domain of values and any number of iterations: whether all the cycles could be solved
or not, the equations that result have exactly the solutions of the original ones. Assumed are exact
index sets (C07 to C18, C22, C23), that explicit forms follow from their equations (C47), and of the
cycles (C37): that each equation reads what the next one writes, and that the first equation is not
found again further on in the cycle.

Not true, though intended by the comments in the code: that the SCC is left as it was if the cycles
can't be solved (SCCSolvingBySubstitution.cpp:645-650) - the clone for the remaining iterations is
not among the equations that are erased; and that no cycle is left if the pass reports that
(SCCSolvingBySubstitution.cpp:624) - the clone is forgotten in the iterations after the next.
-/

namespace Marco.Props
open Marco Spec IndexSet DimAccess AccessFn Subst

/-- What the pass is given. -/
structure SolveInput {α : Type} (D : Domain α) (S : Simplifier)
    (rep : Finset Point → List (Finset Point)) (explicitate : Inst → Option Template)
    (search : List Inst → List (List CyclicEq)) (original : List Inst) (next : Nat) : Prop where
  tidy : Tidy S
  stored : StoredRanges rep
  explicit : ExplicitOk D explicitate
  search : ∀ eqs, ∀ cyc ∈ search eqs, CycleGiven eqs cyc
  ids : (original.map Inst.id).Nodup
  next : ∀ op ∈ original, op.id < next

/-- The claim, in full: the solutions are kept; if some cycle could not be solved the equations are
the original ones; otherwise no cycle is left. -/
def C76_full : Prop := ∀ {α : Type} (D : Domain α) (S : Simplifier)
  (rep : Finset Point → List (Finset Point)) (explicitate : Inst → Option Template)
  (search : List Inst → List (List CyclicEq)) (original : List Inst) (next : Nat),
  SolveInput D S rep explicitate search original next → ∀ (maxIterations : Nat) (ok : Bool)
  (result : List Inst),
  solveSCC S rep explicitate search maxIterations original next = (ok, result) →
  (∀ ρ, SolvesAll D ρ result ↔ SolvesAll D ρ original) ∧
  (ok = false → result = original) ∧ (ok = true → search result = [])

/-- One replacement: if the equation whose explicit form is used holds at the iteration that writes the
element read, the new equation holds exactly where the old one does. -/
theorem C76_replace_partial {α : Type} (D : Domain α) (ρ : Nat → Point → α) (S : Simplifier)
    (hS : Tidy S) (t x t' : Template) (path : Path) (v : Nat) (subs ws : List DimAccess)
    (hat : t.at path = some (.var v subs)) (hsub : PlainAccess t.inds subs)
    (hlhs : x.lhs = .var v ws) (hws : PlainAccess x.inds ws) (hrhs : InScope x.inds x.rhs)
    (ht : replaceAccess S t path x = .done t') (p q r : Point) (hp : p.length = t.inds)
    (hq : q.length = x.inds) (h1 : Reaches subs p r) (h2 : Reaches ws q r) (hx : HoldsAt D ρ x q) :
    HoldsAt D ρ t' p ↔ HoldsAt D ρ t p :=
  replaceAccess_holds D ρ S hS hat hsub hlhs hws hrhs ht hp.ge hq h1 h2 hx

/-- One cycle: where the other equations of the cycle hold, the new equations hold exactly where the
first one does. -/
theorem C76_cycle_partial {α : Type} (D : Domain α) (ρ : Nat → Point → α) (S : Simplifier)
    (hS : Tidy S) (rep : Finset Point → List (Finset Point)) (hrep : StoredRanges rep)
    (explicitate : Inst → Option Template) (hx : ExplicitOk D explicitate) (c : CyclicEq)
    (cs : List CyclicEq) (hp : ∀ d ∈ c :: cs, PartOk d) (hl : Linked (c :: cs)) (new : List Inst)
    (h : solveCycle S rep explicitate (c :: cs) = (new, true)) (hρ : ∀ d ∈ cs, Holds D ρ d.eq) :
    new ≠ [] ∧ ∀ n ∈ new, n.writes = c.eq.writes ∧ ∀ p ∈ iterations n,
      p ∈ iterations c.eq ∧ (HoldsAt D ρ n.tmpl p ↔ HoldsAt D ρ c.eq.tmpl p) := by
  obtain ⟨h1, h2⟩ := solveCycle_spec D S hS hrep hx c cs hp hl
  rw [h] at h1 h2
  exact ⟨h1 rfl, fun n hn => ⟨(h2 n hn).1.writes, (h2 n hn).2 ρ hρ⟩⟩

/-- The solutions are kept. -/
theorem C76_solutions_partial {α : Type} (D : Domain α) (S : Simplifier)
    (rep : Finset Point → List (Finset Point)) (explicitate : Inst → Option Template)
    (search : List Inst → List (List CyclicEq)) (original : List Inst) (next : Nat)
    (hin : SolveInput D S rep explicitate search original next) (maxIterations : Nat) (ok : Bool)
    (result : List Inst)
    (h : solveSCC S rep explicitate search maxIterations original next = (ok, result)) :
    ∀ ρ, SolvesAll D ρ result ↔ SolvesAll D ρ original := by
  have h0 : Kept D original ⟨original, [], [], next⟩ :=
    ⟨hin.ids, hin.next, by simp, fun _ h => h, by simp, fun _ h => h, fun ρ h op hop => h op
      (mem_live.2 ⟨hop, by simp⟩)⟩
  have hk := iterate_kept hin.tidy hin.stored hin.explicit hin.search maxIterations (search original)
    ⟨original, [], [], next⟩ h0 fun cyc hc => cycleGiven_mono (hin.search _ cyc hc)
      fun op hop => mem_live.2 ⟨hop, by simp⟩
  unfold solveSCC at h
  rcases hi : iterate S rep explicitate search original maxIterations (search original)
    ⟨original, [], [], next⟩ with ⟨cycles, st⟩
  rw [hi] at h hk
  simp only at h hk
  intro ρ
  split_ifs at h with hc
  · rw [← (Prod.mk.inj h).2]
    exact ⟨hk.backward ρ, fun ho op hop => hk.forward ρ ho op (List.mem_of_mem_filter hop)⟩
  · rw [← (Prod.mk.inj h).2]
    refine ⟨fun hr op hop => hr op ?_, fun ho op hop => hk.forward ρ ho op
      (List.mem_of_mem_filter hop)⟩
    rw [List.mem_filter]
    exact ⟨hk.sub op hop, by simpa using hk.made op hop⟩

/-! ### Two runs of the pass -/

namespace Sample

/-- Comparison of the subscripts that are found in the samples. -/
def sameSub : DimAccess → DimAccess → Bool
  | .const a, .const b => a == b
  | .dim a, .dim b => a == b
  | .add a b, .add c d => sameSub a c && sameSub b d
  | .mul a b, .mul c d => sameSub a c && sameSub b d
  | _, _ => false

theorem sameSub_eq {a b : DimAccess} (h : sameSub a b = true) : a = b := by
  induction a generalizing b with
  | const v => cases b <;> simp_all [sameSub]
  | dim v => cases b <;> simp_all [sameSub]
  | add x y ihx ihy =>
    cases b <;> simp only [sameSub, Bool.false_eq_true, Bool.and_eq_true] at h
    rw [ihx h.1, ihy h.2]
  | mul x y ihx ihy =>
    cases b <;> simp only [sameSub, Bool.false_eq_true, Bool.and_eq_true] at h
    rw [ihx h.1, ihy h.2]
  | _ => cases b <;> simp [sameSub] at h

/-- Comparison of lists of subscripts. -/
def sameSubs : List DimAccess → List DimAccess → Bool
  | [], [] => true
  | a :: as, b :: bs => sameSub a b && sameSubs as bs
  | _, _ => false

theorem sameSubs_eq {a b : List DimAccess} (h : sameSubs a b = true) : a = b := by
  induction a generalizing b with
  | nil => cases b <;> simp_all [sameSubs]
  | cons x xs ih =>
    cases b with
    | nil => simp [sameSubs] at h
    | cons y ys =>
      simp only [sameSubs, Bool.and_eq_true] at h
      rw [sameSub_eq h.1, ih h.2]

/-- Comparison of expressions. -/
def sameExpr : Expr → Expr → Bool
  | .var v a, .var w b => v == w && sameSubs a b
  | .ind a, .ind b => a == b
  | .cst a, .cst b => a == b
  | .op f a b, .op g c d => f == g && sameExpr a c && sameExpr b d
  | _, _ => false

theorem sameExpr_eq {a b : Expr} (h : sameExpr a b = true) : a = b := by
  induction a generalizing b with
  | var v l =>
    cases b <;> simp only [sameExpr, Bool.false_eq_true, Bool.and_eq_true, beq_iff_eq] at h
    rw [h.1, sameSubs_eq h.2]
  | ind v => cases b <;> simp_all [sameExpr]
  | cst v => cases b <;> simp_all [sameExpr]
  | op f x y ihx ihy =>
    cases b <;> simp only [sameExpr, Bool.false_eq_true, Bool.and_eq_true, beq_iff_eq] at h
    rw [h.1.1, ihx h.1.2, ihy h.2]

/-- Comparison of equations. -/
def sameInst (a b : Inst) : Bool :=
  a.id == b.id && a.writes == b.writes && sameSubs a.written b.written && a.tmpl.inds == b.tmpl.inds &&
    sameExpr a.tmpl.lhs b.tmpl.lhs && sameExpr a.tmpl.rhs b.tmpl.rhs && decide (a.indices = b.indices)

theorem sameInst_eq {a b : Inst} (h : sameInst a b = true) : a = b := by
  simp only [sameInst, Bool.and_eq_true, beq_iff_eq, decide_eq_true_eq] at h
  obtain ⟨⟨⟨⟨⟨⟨h1, h2⟩, h3⟩, h4⟩, h5⟩, h6⟩, h7⟩ := h
  rcases a with ⟨i, w, ws, ⟨n, l, r⟩, s⟩
  rcases b with ⟨i', w', ws', ⟨n', l', r'⟩, s'⟩
  simp only at h1 h2 h3 h4 h5 h6 h7
  rw [h1, h2, sameSubs_eq h3, h4, sameExpr_eq h5, sameExpr_eq h6, h7]

/-- The cycles all equations of which are there. -/
def searchIn (all : List (List CyclicEq)) (eqs : List Inst) : List (List CyclicEq) :=
  all.filter fun cyc => cyc.all fun c => eqs.any (sameInst c.eq ·)

/-- The conditions on cycles that do not depend on the equations. -/
structure Sound (cyc : List CyclicEq) : Prop where
  parts : ∀ c ∈ cyc, PartOk c
  linked : Linked cyc
  first : ∀ c cs, cyc = c :: cs → ∀ d ∈ cs, d.eq.id ≠ c.eq.id

theorem searchIn_given {all : List (List CyclicEq)} (h : ∀ cyc ∈ all, Sound cyc) (eqs : List Inst) :
    ∀ cyc ∈ searchIn all eqs, CycleGiven eqs cyc := by
  intro cyc hc
  unfold searchIn at hc
  rw [List.mem_filter] at hc
  obtain ⟨h1, h2⟩ := hc
  obtain ⟨a, b, c⟩ := h cyc h1
  refine ⟨fun d hd => ⟨a d hd, ?_⟩, b, c⟩
  rw [List.all_eq_true] at h2
  obtain ⟨op, hop, he⟩ := List.any_eq_true.1 (h2 d hd)
  rw [sameInst_eq he]
  exact hop

/-- Variable `v` at the induction variable. -/
def at0 (v : Nat) : Expr := .var v [.dim 0]

/-- Sums are numbered 0. -/
def sum (a b : Expr) : Expr := .op 0 a b

/-- `v[i] = rhs`, for the given `i`. -/
def eqn (id v : Nat) (rhs : Expr) (s : Finset Point) : Inst :=
  ⟨id, v, [.dim 0], ⟨1, at0 v, rhs⟩, s⟩

/-- The integers. -/
def ints : Domain Int := ⟨id, fun _ a b => some (a + b)⟩

/-- A set is stored point by point, up to the order. -/
def single (s : Finset Point) : List (Finset Point) := if s = ∅ then [] else [s]

theorem single_ok : StoredRanges single := by
  refine ⟨?_, ?_⟩
  · intro s r hr
    unfold single at hr
    split_ifs at hr with h
    · simp at hr
    · simp only [List.mem_singleton] at hr
      rw [hr]; exact h
  · intro s p
    unfold single
    split_ifs with h
    · simp [h]
    · simp

/-- The equations for some of the variables are explicit as they stand. -/
def explicitFor (vs : List Nat) (w : Inst) : Option Template :=
  if vs.contains w.writes && (w.tmpl.inds == 1 && sameSubs w.written [.dim 0] &&
    sameExpr w.tmpl.lhs (at0 w.writes) && sameExpr w.tmpl.rhs (at0 0)) then some w.tmpl else none

theorem plain_dim0 : PlainAccess 1 [.dim 0] := by
  intro a ha
  rw [List.mem_singleton] at ha
  subst ha
  exact ⟨.dim 0, rfl, trivial, by simp [AExpr.Below]⟩

theorem explicitFor_ok (vs : List Nat) : ExplicitOk ints (explicitFor vs) := by
  have key : ∀ w x, explicitFor vs w = some x → x = w.tmpl ∧ w.tmpl.inds = 1 ∧
      w.written = [.dim 0] ∧ w.tmpl.lhs = at0 w.writes ∧ w.tmpl.rhs = at0 0 := by
    intro w x h
    unfold explicitFor at h
    split_ifs at h with hc
    simp only [Bool.and_eq_true, beq_iff_eq] at hc
    obtain ⟨-, ⟨⟨h1, h2⟩, h3⟩, h4⟩ := hc
    exact ⟨(Option.some.inj h).symm, h1, sameSubs_eq h2, sameExpr_eq h3, sameExpr_eq h4⟩
  refine ⟨?_, ?_, ?_, ?_⟩
  · intro w x h
    rw [(key w x h).1]
  · intro w x h
    obtain ⟨rfl, -, h2, h3, -⟩ := key w x h
    rw [h3, h2, at0]
  · intro w x h
    obtain ⟨rfl, h1, -, -, h4⟩ := key w x h
    rw [h1, h4]
    exact plain_dim0
  · intro w x ρ p h
    rw [(key w x h).1]
    exact id

/-- `x[i] = y[i] + z[i]` for `i` from 1 to 2. -/
def ex : Inst := eqn 0 0 (sum (at0 1) (at0 2)) {[1], [2]}
/-- `y[1] = x[1]`. -/
def ey : Inst := eqn 1 1 (at0 0) {[1]}
/-- `z[1] = x[1]`. -/
def ez1 : Inst := eqn 2 2 (at0 0) {[1]}
/-- `z[2] = x[2]`. -/
def ez2 : Inst := eqn 3 2 (at0 0) {[2]}

/-- The expression that the transformation gives for the induction variable (not simplified). -/
def i0 : DimAccess := .add (.dim 0) (.mul (.const 0) (.const (-1)))
/-- `x[1] = x[1] + z[1]`: the access to `y` has been replaced. -/
def ex1 : Inst := ⟨4, 0, [.dim 0], ⟨1, at0 0, sum (.var 0 [i0]) (at0 2)⟩, {[1]}⟩
/-- The clone for the other iteration, `x[2] = y[2] + z[2]`. -/
def ex2 : Inst := { ex with id := 5, indices := {[2]} }

/-- The path of the access to `y`. -/
def readY : Path := ⟨true, [false]⟩
/-- The path of the access to `z`. -/
def readZ : Path := ⟨true, [true]⟩
/-- The path of an access that is a whole side. -/
def readX : Path := ⟨true, []⟩

/-- The cycles of the samples, as they appear: `x[1]` and `y[1]`; `x[1]` and `z[1]`; then, when the
first is solved, the new equation for `x[1]` and `z[1]`; the clone and `z[2]`. -/
def cycles : List (List CyclicEq) :=
  [[⟨ex, {[1]}, readY⟩, ⟨ey, {[1]}, readX⟩], [⟨ex, {[1]}, readZ⟩, ⟨ez1, {[1]}, readX⟩],
   [⟨ex, {[2]}, readZ⟩, ⟨ez2, {[2]}, readX⟩], [⟨ex1, {[1]}, readZ⟩, ⟨ez1, {[1]}, readX⟩],
   [⟨ex2, {[2]}, readZ⟩, ⟨ez2, {[2]}, readX⟩]]

theorem part_ok {op : Inst} {s : Finset Point} {path : Path} (h1 : op.tmpl.inds = 1)
    (h2 : op.written = [.dim 0]) (h3 : ∀ p ∈ op.indices, p.length = 1) (hs : s ≠ ∅)
    (hsub : s ⊆ op.indices) : PartOk ⟨op, s, path⟩ := by
  have hne : op.indices ≠ ∅ := by
    obtain ⟨p, hp⟩ := Finset.nonempty_iff_ne_empty.2 hs
    exact Finset.ne_empty_of_mem (hsub hp)
  refine ⟨⟨by rw [h1]; exact h3, by simp [h1, hne], by rw [h1, h2]; exact plain_dim0⟩, hs, fun _ => hsub,
    fun h => ?_⟩
  rw [h1] at h
  simp at h

theorem sound_pair {a b : Inst} {i : Int} {path path' : Path} (ha : PartOk ⟨a, {[i]}, path⟩)
    (hb : PartOk ⟨b, {[i]}, path'⟩) (hid : b.id ≠ a.id) (hi : a.tmpl.inds = 1)
    (hat : a.tmpl.at path = some (.var b.writes [.dim 0])) (hw : b.written = [.dim 0]) :
    Sound [⟨a, {[i]}, path⟩, ⟨b, {[i]}, path'⟩] := by
  refine ⟨?_, ?_, ?_⟩
  · intro c hc
    simp only [List.mem_cons, List.not_mem_nil, or_false] at hc
    rcases hc with rfl | rfl
    · exact ha
    · exact hb
  · refine ⟨⟨[.dim 0], hat, by rw [hi]; exact plain_dim0, fun q hq => ⟨q, hq, [i], ?_, ?_⟩⟩, trivial⟩
    · rw [Finset.mem_singleton.1 hq]
      exact .cons ⟨.dim 0, rfl, rfl⟩ .nil
    · rw [Finset.mem_singleton.1 hq, hw]
      exact .cons ⟨.dim 0, rfl, rfl⟩ .nil
  · intro c cs h d hd
    obtain ⟨rfl, rfl⟩ := List.cons.inj h
    simp only [List.mem_singleton] at hd
    rw [hd]
    exact hid

theorem cycles_sound : ∀ cyc ∈ cycles, Sound cyc := by
  intro cyc hc
  simp only [cycles, List.mem_cons, List.not_mem_nil, or_false] at hc
  rcases hc with rfl | rfl | rfl | rfl | rfl
  all_goals
    exact sound_pair (part_ok rfl rfl (by decide) (by decide) (by decide))
      (part_ok rfl rfl (by decide) (by decide) (by decide)) (by decide) rfl rfl rfl

/-- `y` can be made explicit, `z` can't: after the first cycle the second can't be solved. -/
def giveUp : Bool × List Inst :=
  solveSCC idSimp single (explicitFor [1]) (searchIn cycles) 2 [ex, ey, ez1] 4

theorem input (vs : List Nat) (l : List Inst) (hl : (l.map Inst.id).Nodup) (hn : ∀ op ∈ l, op.id < 4) :
    SolveInput ints idSimp single (explicitFor vs) (searchIn cycles) l 4 :=
  ⟨tidy_idSimp, single_ok, explicitFor_ok vs, searchIn_given cycles_sound, hl, hn⟩

/-- Everything can be made explicit. In the second iteration the new equation for `x[1]` is
substituted; in the third the clone is no longer considered. -/
def forget : Bool × List Inst :=
  solveSCC idSimp single (explicitFor [1, 2]) (searchIn cycles) 10 [ex, ey, ez1, ez2] 4

end Sample

open Sample

/-- The cycle between `x[1]` and `z[1]` can't be solved, and the SCC is "restored": it now has a second
equation for `x[2]`. -/
theorem C76_restore_false : ¬ ∀ {α : Type} (D : Domain α) (S : Simplifier)
    (rep : Finset Point → List (Finset Point)) (explicitate : Inst → Option Template)
    (search : List Inst → List (List CyclicEq)) (original : List Inst) (next : Nat),
    SolveInput D S rep explicitate search original next → ∀ (maxIterations : Nat)
    (result : List Inst),
    solveSCC S rep explicitate search maxIterations original next = (false, result) →
    result = original := by
  intro h
  have h1 : giveUp.1 = false := by decide +kernel
  have h2 : giveUp.2.length = 4 := by decide +kernel
  have := h ints idSimp single (explicitFor [1]) (searchIn cycles) [ex, ey, ez1] 4
    (input _ _ (by decide) (by decide)) 2 giveUp.2 (Prod.ext h1 rfl)
  rw [this] at h2
  simp at h2

/-- The cycle between `x[2]` and `z[2]` is left, though the pass reports that there is none. -/
theorem C76_remaining_false : ¬ ∀ {α : Type} (D : Domain α) (S : Simplifier)
    (rep : Finset Point → List (Finset Point)) (explicitate : Inst → Option Template)
    (search : List Inst → List (List CyclicEq)) (original : List Inst) (next : Nat),
    SolveInput D S rep explicitate search original next → ∀ (maxIterations : Nat)
    (result : List Inst),
    solveSCC S rep explicitate search maxIterations original next = (true, result) →
    search result = [] := by
  intro h
  have h1 : forget.1 = true := by decide +kernel
  have h2 : (searchIn cycles forget.2).length = 1 := by decide +kernel
  have := h ints idSimp single (explicitFor [1, 2]) (searchIn cycles) [ex, ey, ez1, ez2] 4
    (input _ _ (by decide) (by decide)) 10 forget.2 (Prod.ext h1 rfl)
  rw [this] at h2
  simp at h2

theorem C76_full_false : ¬ C76_full := by
  intro h
  refine C76_restore_false ?_
  intro α D S rep explicitate search original next hin k result hr
  exact (h D S rep explicitate search original next hin k false result hr).2.1 rfl

/-- `x[2] = z[2] = 7`, everything else is zero. -/
def sampleSolution (v : Nat) (p : Point) : Int := if p = [2] ∧ v ≠ 1 then 7 else 0

-- The equations that result from the second run have the solutions of the original ones, for
-- example this one; and the first cycle gives `x[1] = x[1] + z[1]` for the one iteration.
example : SolvesAll ints sampleSolution forget.2 := by
  refine (C76_solutions_partial ints idSimp single (explicitFor [1, 2]) (searchIn cycles)
    [ex, ey, ez1, ez2] 4 (input _ _ (by decide) (by decide)) 10 forget.1 forget.2 rfl _).2 ?_
  intro op hop p hp
  simp only [List.mem_cons, List.not_mem_nil, or_false] at hop
  rcases hop with rfl | rfl | rfl | rfl
  · have hp' : p = [1] ∨ p = [2] := by simpa [iterations, ex, eqn] using hp
    rcases hp' with rfl | rfl
    · exact ⟨0, by decide, by decide⟩
    · exact ⟨7, by decide, by decide⟩
  · have hp' : p = [1] := by simpa [iterations, ey, eqn] using hp
    subst hp'
    exact ⟨0, by decide, by decide⟩
  · have hp' : p = [1] := by simpa [iterations, ez1, eqn] using hp
    subst hp'
    exact ⟨0, by decide, by decide⟩
  · have hp' : p = [2] := by simpa [iterations, ez2, eqn] using hp
    subst hp'
    exact ⟨7, by decide, by decide⟩

example : ((solveCycle idSimp single (explicitFor [1]) [⟨ex, {[1]}, readY⟩, ⟨ey, {[1]}, readX⟩]).1.map
    fun n => sameExpr n.tmpl.rhs (sum (.var 0 [i0]) (at0 2)) && decide (n.indices = {[1]})) =
    [true] := by decide +kernel

end Marco.Props
