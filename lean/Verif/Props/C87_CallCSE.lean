import Verif.Lemmas.CallCSE
import Mathlib.Tactic.FinCases

/-!
# C87: the elimination of common calls keeps the solutions
-/

namespace Marco.Props
open Marco.CSE Marco.Spec.CSE

/-- For all well-formed templates the pass ends with templates that have the same solutions, that
determine the new variables, and that access existing elements. -/
def C87_full : Prop :=
  ∀ (sig : Sig) (ts : List Template), WellFormed sig ts → ∃ res, cseCalls sig ts = .ok res ∧ Preserves ts res

/-- It holds if every instance has at most one range, calls are not in reductions, reductions in their
arguments are over one range, calls in their arguments are used for the first result, and calls that
differ in the inductions only are aligned. Missing: the other templates, for which it is false (below). -/
theorem C87_calls_partial (sig : Sig) (ts : List Template) (wf : WellFormed sig ts) (ho : OneRange ts)
    (hs : SimpleCalls ts) (hcl : ClosedCalls ts) (ha : Aligned ts) :
    ∃ res, cseCalls sig ts = .ok res ∧ Preserves ts res :=
  preserves wf ho hs hcl ha

/-! ## A case of the hypotheses -/

def C87_list : List Ex → Args
  | [] => .nil
  | a :: l => .cons a (C87_list l)

/-- An equation. -/
def C87_eq (spaces : List (List Box)) (a b : Ex) : Template := ⟨[(a, b)], spaces⟩

/-- `f` has one result, `g` two. -/
def C87_sig : Sig := ⟨fun f => if f = "g" then 2 else 1, fun _ => false⟩

/-- `x[i] = f(y[i])` for `i` in `[1, 4)`, `z[j, k] = f(y[k]) + f(u)` for `(j, k)` in `[0, 2) × [1, 4)`,
`u = f(u)`: the first call is equal to the second one, the third to the fourth. -/
def C87_ts : List Template :=
  [C87_eq [[[⟨1, 4⟩]]] (.op "at" (C87_list [.get "x", .ind 0]))
      (.call 1 "f" 0 (C87_list [.op "at" (C87_list [.get "y", .ind 0])])),
    C87_eq [[[⟨0, 2⟩, ⟨1, 4⟩]]] (.op "at" (C87_list [.get "z", .ind 0, .ind 1]))
      (.op "add" (C87_list [.call 1 "f" 0 (C87_list [.op "at" (C87_list [.get "y", .ind 1])]),
        .call 2 "f" 0 (C87_list [.get "u"])])),
    C87_eq [[]] (.get "u") (.call 1 "f" 0 (C87_list [.get "u"]))]

theorem C87_within {t : Template} {e : Ex} : Within t e ↔ e ∈ t.sides.flatMap fun x => subs x.1 ++ subs x.2 := by
  simp [Within, List.mem_flatMap, List.mem_append]

theorem C87_ts_wf : WellFormed C87_sig C87_ts := by
  refine ⟨?_, ?_, ?_, ?_, ?_⟩
  · intro t ht n r idx hw
    rw [C87_within] at hw
    simp only [C87_ts, List.mem_cons, List.not_mem_nil, or_false] at ht
    rcases ht with rfl | rfl | rfl <;> simp [C87_eq, C87_list, subs, subsArgs] at hw
  · intro t ht id f r as g q bs hw hw'
    rw [C87_within] at hw hw'
    simp only [C87_ts, List.mem_cons, List.not_mem_nil, or_false] at ht
    rcases ht with rfl | rfl | rfl
    · simp [C87_eq, C87_list, subs, subsArgs] at hw hw'
      simp [hw, hw']
    · simp [C87_eq, C87_list, subs, subsArgs] at hw hw'
      rcases hw with h | h <;> rcases hw' with h' | h' <;> simp_all
    · simp [C87_eq, C87_list, subs, subsArgs] at hw hw'
      simp [hw, hw']
  · intro t ht id f r as hw
    rw [C87_within] at hw
    simp only [C87_ts, List.mem_cons, List.not_mem_nil, or_false] at ht
    rcases ht with rfl | rfl | rfl <;> simp [C87_eq, C87_list, subs, subsArgs] at hw
    · simp [hw, C87_sig]
    · rcases hw with h | h <;> simp [h, C87_sig]
    · simp [hw, C87_sig]
  · intro t ht x hx
    simp only [C87_ts, List.mem_cons, List.not_mem_nil, or_false] at ht
    rcases ht with rfl | rfl | rfl <;> simp [C87_eq] at hx <;> subst hx <;>
      simp [C87_list, Scoped, ScopedArgs]
  · intro t ht i hw
    rw [C87_within] at hw
    simp only [C87_ts, List.mem_cons, List.not_mem_nil, or_false] at ht
    rcases ht with rfl | rfl | rfl <;> simp [C87_eq, C87_list, subs, subsArgs] at hw ⊢ <;> omega

theorem C87_ts_calls (t : Template) (ht : t ∈ C87_ts) (id f r as) (h : Within t (.call id f r as)) :
    f = "f" ∧ ((∃ i, as = C87_list [.op "at" (C87_list [.get "y", .ind i])]) ∨ as = C87_list [.get "u"]) := by
  rw [C87_within] at h
  simp only [C87_ts, List.mem_cons, List.not_mem_nil, or_false] at ht
  rcases ht with rfl | rfl | rfl <;> simp [C87_eq, C87_list, subs, subsArgs] at h
  · exact ⟨h.2.1, .inl ⟨0, by simp [h, C87_list]⟩⟩
  · rcases h with h | h
    · exact ⟨h.2.1, .inl ⟨1, by simp [h, C87_list]⟩⟩
    · exact ⟨h.2.1, .inr (by simp [h, C87_list])⟩
  · exact ⟨h.2.1, .inr (by simp [h, C87_list])⟩

theorem C87_ts_aligned : Aligned C87_ts := by
  intro t ht t' ht' id f r as id' r' bs h h' he
  obtain ⟨_, h⟩ := C87_ts_calls t ht _ _ _ _ h
  obtain ⟨_, h'⟩ := C87_ts_calls t' ht' _ _ _ _ h'
  rcases h with ⟨i, rfl⟩ | rfl <;> rcases h' with ⟨j, rfl⟩ | rfl
  · exact ⟨fun _ => i, by simp [C87_list, relabelArgs, relabel]⟩
  · simp [C87_list, relabelArgs, relabel] at he
  · simp [C87_list, relabelArgs, relabel] at he
  · exact ⟨fun _ => 0, by simp [C87_list, relabelArgs, relabel]⟩

example : ∃ res, cseCalls C87_sig C87_ts = .ok res ∧ Preserves C87_ts res := by
  refine C87_calls_partial _ _ C87_ts_wf ?_ ?_ ?_ C87_ts_aligned
  · intro t ht s hs
    simp only [C87_ts, List.mem_cons, List.not_mem_nil, or_false] at ht
    rcases ht with rfl | rfl | rfl <;> simp [C87_eq] at hs <;> simp [hs]
  · intro t ht id f r as h a ha
    obtain ⟨_, h⟩ := C87_ts_calls t ht _ _ _ _ h
    rcases h with ⟨i, rfl⟩ | rfl <;> simp [C87_list, subsArgs, subs] at ha
    · rcases ha with rfl | rfl | rfl <;> trivial
    · subst ha; trivial
  · intro t ht id f r as h
    obtain ⟨_, h⟩ := C87_ts_calls t ht _ _ _ _ h
    rcases h with ⟨i, rfl⟩ | rfl <;> simp [C87_list, ScopedArgs, Scoped]

/-- There are two new variables, with three and one elements, and the calls are replaced. -/
example : cseCalls C87_sig C87_ts = .ok
    ⟨[C87_eq [[[⟨1, 4⟩]]] (.op "at" (C87_list [.get "x", .ind 0])) (.cse 0 0 [(0, 1)]),
      C87_eq [[[⟨0, 2⟩, ⟨1, 4⟩]]] (.op "at" (C87_list [.get "z", .ind 0, .ind 1]))
        (.op "add" (C87_list [.cse 0 0 [(1, 1)], .cse 1 0 []])),
      C87_eq [[]] (.get "u") (.cse 1 0 []),
      C87_eq [[[⟨1, 4⟩]]] (.cse 0 0 [(0, 1)])
        (.call 1 "f" 0 (C87_list [.op "at" (C87_list [.get "y", .ind 0])])),
      C87_eq [[]] (.cse 1 0 []) (.call 2 "f" 0 (C87_list [.get "u"]))],
    [⟨0, 0, [3]⟩, ⟨1, 0, []⟩]⟩ := by rfl

/-! ## Where it is false -/

/-- `z[i] = f(i, i)` and `w[i, j] = f(i, j)`, all the inductions in `[0, 2)`. -/
def C87_inds : List Template :=
  [C87_eq [[[⟨0, 2⟩]]] (.op "z" (C87_list [.ind 0])) (.call 1 "f" 0 (C87_list [.ind 0, .ind 0])),
    C87_eq [[[⟨0, 2⟩, ⟨0, 2⟩]]] (.op "w" (C87_list [.ind 0, .ind 1])) (.call 1 "f" 0 (C87_list [.ind 0, .ind 1]))]

theorem C87_inds_wf : WellFormed C87_sig C87_inds := by
  refine ⟨?_, ?_, ?_, ?_, ?_⟩
  · intro t ht n r idx hw
    rw [C87_within] at hw
    simp only [C87_inds, List.mem_cons, List.not_mem_nil, or_false] at ht
    rcases ht with rfl | rfl <;> simp [C87_eq, C87_list, subs, subsArgs] at hw
  · intro t ht id f r as g q bs hw hw'
    rw [C87_within] at hw hw'
    simp only [C87_inds, List.mem_cons, List.not_mem_nil, or_false] at ht
    rcases ht with rfl | rfl <;> simp [C87_eq, C87_list, subs, subsArgs] at hw hw' <;> simp [hw, hw']
  · intro t ht id f r as hw
    rw [C87_within] at hw
    simp only [C87_inds, List.mem_cons, List.not_mem_nil, or_false] at ht
    rcases ht with rfl | rfl <;> simp [C87_eq, C87_list, subs, subsArgs] at hw <;> simp [hw, C87_sig]
  · intro t ht x hx
    simp only [C87_inds, List.mem_cons, List.not_mem_nil, or_false] at ht
    rcases ht with rfl | rfl <;> simp [C87_eq] at hx <;> subst hx <;>
      simp [C87_list, Scoped, ScopedArgs]
  · intro t ht i hw
    rw [C87_within] at hw
    simp only [C87_inds, List.mem_cons, List.not_mem_nil, or_false] at ht
    rcases ht with rfl | rfl <;> simp [C87_eq, C87_list, subs, subsArgs] at hw ⊢ <;> omega

/-- What the pass makes of them: `f(i, j)` becomes the element `(i, i)` of the variable for `f(i, i)`. -/
def C87_inds_res : Result :=
  ⟨[C87_eq [[[⟨0, 2⟩]]] (.op "z" (C87_list [.ind 0])) (.cse 0 0 [(0, 0), (0, 0)]),
    C87_eq [[[⟨0, 2⟩, ⟨0, 2⟩]]] (.op "w" (C87_list [.ind 0, .ind 1])) (.cse 0 0 [(0, 0), (0, 0)]),
    C87_eq [[[⟨0, 2⟩, ⟨0, 2⟩]]] (.cse 0 0 [(0, 0), (1, 0)]) (.call 1 "f" 0 (C87_list [.ind 1, .ind 1]))],
    [⟨0, 0, [2, 2]⟩]⟩

/-- All operations and functions are `2 a + b` of the first two arguments, reductions evaluate their
body at `(0, 1)`, and the results of functions are shifted by their number. -/
def C87_sem : Sem ℤ where
  const := id
  ofInt := id
  op := fun _ l => 2 * l.getD 0 0 + l.getD 1 (l.getD 0 0)
  red := fun _ _ F => F [0, 1]
  fn := fun _ l r => 2 * l.getD 0 0 + l.getD 1 (l.getD 0 0) + r

/-- Inductions that are one in the representative and two in another call: the values are wrong. -/
theorem C87_inductions_wrong : WellFormed C87_sig C87_inds ∧
    cseCalls C87_sig C87_inds = .ok C87_inds_res ∧ ¬ Preserves C87_inds C87_inds_res := by
  refine ⟨C87_inds_wf, rfl, ?_⟩
  intro h
  have h0 : Solves C87_sem (fun _ => 0) (fun _ _ _ => 0) C87_inds := by
    intro t ht s hs η hη x hx
    simp only [C87_inds, List.mem_cons, List.not_mem_nil, or_false] at ht
    rcases ht with rfl | rfl <;> simp [C87_eq] at hx <;> subst hx <;>
      simp [C87_list, eval, evalArgs, C87_sem]
  obtain ⟨κ, hκ⟩ := (h.solutions ℤ C87_sem _ _).mp h0
  let η : ℕ → ℤ := fun i => if i = 1 then 1 else 0
  have h1 := hκ _ (List.mem_cons_of_mem _ List.mem_cons_self) _ List.mem_cons_self η
    (.inr ⟨_, List.mem_cons_self, by
      intro i r hr
      match i with
      | 0 => simp at hr; subst hr; simp [η]
      | 1 => simp at hr; subst hr; simp [η]
      | i + 2 => simp at hr⟩) _ List.mem_cons_self
  have h2 := hκ _ (List.mem_cons_of_mem _ (List.mem_cons_of_mem _ List.mem_cons_self)) _ List.mem_cons_self
    (fun _ => 0)
    (.inr ⟨_, List.mem_cons_self, by
      intro i r hr
      match i with
      | 0 => simp at hr; subst hr; simp
      | 1 => simp at hr; subst hr; simp
      | i + 2 => simp at hr⟩) _ List.mem_cons_self
  simp [C87_list, eval, evalArgs, C87_sem, η] at h1 h2
  omega

/-- An equation over two ranges. -/
def C87_ranges : List Template :=
  [C87_eq [[[⟨0, 2⟩], [⟨4, 6⟩]]] (.op "at" (C87_list [.get "x", .ind 0])) (.call 1 "f" 0 (C87_list [.get "u"]))]

/-- A template with several ranges is collected once for each of them, and its calls are replaced more
than once. -/
theorem C87_ranges_fail : WellFormed C87_sig C87_ranges ∧
    cseCalls C87_sig C87_ranges = .error .useAfterFree := by
  refine ⟨⟨?_, ?_, ?_, ?_, ?_⟩, rfl⟩
  · intro t ht n r idx hw
    rw [C87_within] at hw
    simp only [C87_ranges, List.mem_singleton] at ht
    subst ht; simp [C87_eq, C87_list, subs, subsArgs] at hw
  · intro t ht id f r as g q bs hw hw'
    rw [C87_within] at hw hw'
    simp only [C87_ranges, List.mem_singleton] at ht
    subst ht; simp [C87_eq, C87_list, subs, subsArgs] at hw hw'; simp [hw, hw']
  · intro t ht id f r as hw
    rw [C87_within] at hw
    simp only [C87_ranges, List.mem_singleton] at ht
    subst ht; simp [C87_eq, C87_list, subs, subsArgs] at hw; simp [hw, C87_sig]
  · intro t ht x hx
    simp only [C87_ranges, List.mem_singleton] at ht
    subst ht; simp [C87_eq] at hx; subst hx
    simp [C87_list, Scoped, ScopedArgs]
  · intro t ht i hw
    rw [C87_within] at hw
    simp only [C87_ranges, List.mem_singleton] at ht
    subst ht; simp [C87_eq, C87_list, subs, subsArgs] at hw; simp [C87_eq, hw]

theorem C87_scalar_wf (ts : List Template) (h : ∀ t ∈ ts, ∃ v b, t = C87_eq [[]] (.get v) b ∧ Scoped 0 b ∧
    (∀ n r idx, Ex.cse n r idx ∉ subs b) ∧ (∀ i, Ex.ind i ∉ subs b) ∧
    (∀ id f r as g q bs, Ex.call id f r as ∈ subs b → Ex.call id g q bs ∈ subs b → f = g ∧ as = bs) ∧
    ∀ id f r as, Ex.call id f r as ∈ subs b → r < C87_sig.results f) : WellFormed C87_sig ts := by
  refine ⟨?_, ?_, ?_, ?_, ?_⟩
  · intro t ht n r idx hw
    obtain ⟨v, b, rfl, _, hb, _⟩ := h t ht
    rw [C87_within] at hw
    simp [C87_eq, subs] at hw
    exact hb _ _ _ hw
  · intro t ht id f r as g q bs hw hw'
    obtain ⟨v, b, rfl, _, _, _, hb, _⟩ := h t ht
    rw [C87_within] at hw hw'
    simp [C87_eq, subs] at hw hw'
    exact hb _ _ _ _ _ _ _ hw hw'
  · intro t ht id f r as hw
    obtain ⟨v, b, rfl, _, _, _, _, hb⟩ := h t ht
    rw [C87_within] at hw
    simp [C87_eq, subs] at hw
    exact hb _ _ _ _ hw
  · intro t ht x hx
    obtain ⟨v, b, rfl, hb, _⟩ := h t ht
    simp [C87_eq] at hx
    subst hx
    exact ⟨trivial, hb⟩
  · intro t ht i hw
    obtain ⟨v, b, rfl, _, _, hb, _⟩ := h t ht
    rw [C87_within] at hw
    simp [C87_eq, subs] at hw
    exact absurd hw (hb i)

/-- `v = sum(f(k) for k in r)`. -/
def C87_inner (v : String) : Template :=
  C87_eq [[]] (.get v) (.red "sum" (C87_list [.get "r"]) (.call 1 "f" 0 (C87_list [.bound 0 0])))

/-- A call in a reduction is cloned out of the region of its argument. -/
theorem C87_reduction_fails : WellFormed C87_sig [C87_inner "x", C87_inner "y"] ∧
    cseCalls C87_sig [C87_inner "x", C87_inner "y"] = .error .invalid := by
  refine ⟨C87_scalar_wf _ ?_, rfl⟩
  intro t ht
  simp only [List.mem_cons, List.not_mem_nil, or_false] at ht
  have : ∃ v, t = C87_inner v := by rcases ht with rfl | rfl <;> exact ⟨_, rfl⟩
  obtain ⟨v, rfl⟩ := this
  refine ⟨v, _, rfl, ?_, ?_, ?_, ?_, ?_⟩
  · simp [C87_list, Scoped, ScopedArgs]
  · simp [C87_list, subs, subsArgs]
  · simp [C87_list, subs, subsArgs]
  · intro id f r as g q bs h h'
    simp [C87_list, subs, subsArgs] at h h'
    simp [h, h']
  · intro id f r as h
    simp [C87_list, subs, subsArgs] at h
    simp [h, C87_sig]

/-- `v = f(sum(A[k, l] for k in r, l in r))`, or with other arguments in the subscripts. -/
def C87_sum (v : String) (k l : ℕ) : Template :=
  C87_eq [[]] (.get v) (.call 1 "f" 0 (C87_list [.red "sum" (C87_list [.get "r", .get "r"])
    (.op "at" (C87_list [.bound 0 k, .bound 0 l]))]))

/-- What the pass makes of two of them: both are the same variable. -/
def C87_sum_res : Result :=
  ⟨[C87_eq [[]] (.get "x") (.cse 0 0 []), C87_eq [[]] (.get "y") (.cse 0 0 []),
    C87_eq [[]] (.cse 0 0 []) (.call 1 "f" 0 (C87_list [.red "sum" (C87_list [.get "r", .get "r"])
      (.op "at" (C87_list [.bound 0 0, .bound 0 0]))]))], [⟨0, 0, []⟩]⟩

theorem C87_same_value (a b : Ex) (ts : List Template) (vars : List Var) (σ : String → ℤ)
    (ha : σ "x" = eval C87_sem σ (fun _ _ _ => 0) (fun _ => 0) [] a)
    (hi : ∀ η, eval C87_sem σ (fun _ _ _ => 0) η [] a = eval C87_sem σ (fun _ _ _ => 0) (fun _ => 0) [] a)
    (hb : σ "y" = eval C87_sem σ (fun _ _ _ => 0) (fun _ => 0) [] b)
    (hj : ∀ η, eval C87_sem σ (fun _ _ _ => 0) η [] b = eval C87_sem σ (fun _ _ _ => 0) (fun _ => 0) [] b)
    (hne : σ "x" ≠ σ "y") (n : ℕ) :
    ¬ Preserves [C87_eq [[]] (.get "x") a, C87_eq [[]] (.get "y") b]
      ⟨C87_eq [[]] (.get "x") (.cse n 0 []) :: C87_eq [[]] (.get "y") (.cse n 0 []) :: ts, vars⟩ := by
  intro h
  have h0 : Solves C87_sem σ (fun _ _ _ => 0) [C87_eq [[]] (.get "x") a, C87_eq [[]] (.get "y") b] := by
    intro t ht s hs η hη x hx
    simp only [List.mem_cons, List.not_mem_nil, or_false] at ht
    rcases ht with rfl | rfl <;> simp [C87_eq] at hx <;> subst hx <;> simp only [eval]
    · rw [hi]; exact ha
    · rw [hj]; exact hb
  obtain ⟨κ, hκ⟩ := (h.solutions ℤ C87_sem _ _).mp h0
  have h1 := hκ _ List.mem_cons_self _ List.mem_cons_self (fun _ => 0) (.inl rfl) _ List.mem_cons_self
  have h2 := hκ _ (List.mem_cons_of_mem _ List.mem_cons_self) _ List.mem_cons_self (fun _ => 0) (.inl rfl) _
    List.mem_cons_self
  simp only [eval] at h1 h2
  exact hne (h1.trans h2.symm)

/-- The arguments of reductions are not compared: `f(sum(A[k, k]))` and `f(sum(A[k, l]))` become equal. -/
theorem C87_reduction_wrong : WellFormed C87_sig [C87_sum "x" 0 0, C87_sum "y" 0 1] ∧
    cseCalls C87_sig [C87_sum "x" 0 0, C87_sum "y" 0 1] = .ok C87_sum_res ∧
      ¬ Preserves [C87_sum "x" 0 0, C87_sum "y" 0 1] C87_sum_res := by
  refine ⟨C87_scalar_wf _ ?_, rfl, ?_⟩
  · intro t ht
    simp only [List.mem_cons, List.not_mem_nil, or_false] at ht
    have : ∃ v k l, t = C87_sum v k l := by rcases ht with rfl | rfl <;> exact ⟨_, _, _, rfl⟩
    obtain ⟨v, k, l, rfl⟩ := this
    refine ⟨v, _, rfl, ?_, ?_, ?_, ?_, ?_⟩
    · simp [C87_list, Scoped, ScopedArgs]
    · simp [C87_list, subs, subsArgs]
    · simp [C87_list, subs, subsArgs]
    · intro id f r as g q bs h h'
      simp [C87_list, subs, subsArgs] at h h'
      simp [h, h']
    · intro id f r as h
      simp [C87_list, subs, subsArgs] at h
      simp [h, C87_sig]
  · refine C87_same_value _ _ _ _ (fun v => if v = "y" then 3 else 0) ?_ ?_ ?_ ?_ (by decide) 0
    · decide
    · intro η; rfl
    · decide
    · intro η; rfl

/-- `v = f(g(u)#r)`. -/
def C87_nested (v : String) (r : ℕ) : Template :=
  C87_eq [[]] (.get v) (.call 2 "f" 0 (C87_list [.call 1 "g" r (C87_list [.get "u"])]))

/-- What the pass makes of two of them. -/
def C87_nested_res : Result :=
  ⟨[C87_eq [[]] (.get "x") (.cse 1 0 []), C87_eq [[]] (.get "y") (.cse 1 0 []),
    C87_eq [[]] (.cse 0 0 []) (.call 1 "g" 0 (C87_list [.get "u"])),
    C87_eq [[]] (.cse 0 1 []) (.call 1 "g" 1 (C87_list [.get "u"])),
    C87_eq [[]] (.cse 1 0 []) (.call 2 "f" 0 (C87_list [.cse 0 0 []]))],
    [⟨0, 0, []⟩, ⟨0, 1, []⟩, ⟨1, 0, []⟩]⟩

/-- The results of calls are not compared: `f(g(u)#0)` and `f(g(u)#1)` become equal. -/
theorem C87_result_wrong : WellFormed C87_sig [C87_nested "x" 0, C87_nested "y" 1] ∧
    cseCalls C87_sig [C87_nested "x" 0, C87_nested "y" 1] = .ok C87_nested_res ∧
      ¬ Preserves [C87_nested "x" 0, C87_nested "y" 1] C87_nested_res := by
  refine ⟨C87_scalar_wf _ ?_, rfl, ?_⟩
  · intro t ht
    simp only [List.mem_cons, List.not_mem_nil, or_false] at ht
    have : ∃ v r, r < 2 ∧ t = C87_nested v r := by rcases ht with rfl | rfl <;> exact ⟨_, _, by decide, rfl⟩
    obtain ⟨v, k, hk, rfl⟩ := this
    refine ⟨v, _, rfl, ?_, ?_, ?_, ?_, ?_⟩
    · simp [C87_list, Scoped, ScopedArgs]
    · simp [C87_list, subs, subsArgs]
    · simp [C87_list, subs, subsArgs]
    · intro id f r as g q bs h h'
      simp [C87_list, subs, subsArgs] at h h'
      rcases h with h | h <;> rcases h' with h' | h' <;> simp_all
    · intro id f r as h
      simp [C87_list, subs, subsArgs] at h
      rcases h with h | h <;> simp [h, C87_sig, hk]
  · refine C87_same_value _ _ _ _ (fun v => if v = "y" then 3 else 0) ?_ ?_ ?_ ?_ (by decide) 1
    · decide
    · intro η; rfl
    · decide
    · intro η; rfl

/-- The property is false of the code. -/
theorem C87_full_false : ¬ C87_full := by
  intro h
  obtain ⟨hw, he⟩ := C87_ranges_fail
  obtain ⟨res, hr, _⟩ := h _ _ hw
  rw [he] at hr
  cases hr

end Marco.Props
