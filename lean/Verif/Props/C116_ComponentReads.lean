import Verif.Lemmas.ComponentReads

/-!
# C116: a component reference reads the elements that its subscripts name
-/

namespace Marco.Props
open Marco.CompRead Marco.Spec.CompRead

/-- The value of the reference has the dimensions that remain, and the elements that the subscripts of each component choose. -/
def C116_claim (path : List (Nat × List Sub)) : Prop :=
  ∃ v, lowerRef path = some v ∧ v.rank = (path.map free).sum ∧
    ∀ idx : List Int, idx.length = (path.map free).sum → v.elem idx = element path idx

/-- The full claim: references with not more subscripts than dimensions. -/
def C116_full : Prop := ∀ path, path ≠ [] → (∀ c ∈ path, c.2.length ≤ c.1) → C116_claim path

/-- The components after the first. -/
theorem C116_rest (rest pre : List (Nat × List Sub)) (v : Val) (h : Stands v pre) (hl : ∀ c ∈ rest, c.2.length ≤ c.1)
    (hc : ∀ (k : Nat) c, rest[k]? = some c → c.2 = [] ∨ (k + 1 = rest.length ∧ c.2.length = c.1) ∨
      (k + 1 ≠ rest.length ∧ ((pre ++ rest.take k).map free).sum = 0)) : Stands (lowerRest v rest) (pre ++ rest) := by
  induction rest generalizing pre v with
  | nil => simpa [lowerRest] using h
  | cons c rest ih =>
    simp only [lowerRest]
    have h0 := hc 0 c rfl
    have step : Stands (lowerSubscripts (component v c.1) c.2 false rest.isEmpty) (pre ++ [c]) := by
      refine stands_component v pre c _ h (hl c (by simp)) ?_
      rcases h0 with h0 | ⟨h0, h1⟩ | ⟨h0, h1⟩
      · exact .inl h0
      · refine .inr (.inl ⟨?_, h1⟩)
        simp only [List.length_cons] at h0
        rw [List.isEmpty_iff, ← List.length_eq_zero_iff]
        omega
      · refine .inr (.inr ⟨?_, ?_⟩)
        · cases rest with
          | nil => simp at h0
          | cons => rfl
        · rw [h.1]
          simpa using h1
    have := ih (pre ++ [c]) _ step (fun d hd => hl d (by simp [hd])) (by
      intro k d hd
      have := hc (k + 1) d (by simpa using hd)
      simpa using this)
    simpa using this

/-- References in which the last component, unless it is the first, has no subscripts or one for each of its dimensions, and
a component in the middle has subscripts only if nothing remains of the dimensions before it. -/
theorem C116_reads_partial (path : List (Nat × List Sub)) (hne : path ≠ []) (hl : ∀ c ∈ path, c.2.length ≤ c.1)
    (hlast : ∀ c, path[path.length - 1]? = some c → path.length = 1 ∨ c.2 = [] ∨ c.2.length = c.1)
    (hmid : ∀ (k : Nat) c, 0 < k → k + 1 < path.length → path[k]? = some c → c.2 = [] ∨ ((path.take k).map free).sum = 0) :
    C116_claim path := by
  match path, hne with
  | c :: rest, _ =>
    have h1 := stands_first c rest.isEmpty (hl c (by simp))
    have h2 := C116_rest rest [c] _ h1 (fun d hd => hl d (by simp [hd])) (by
      intro k d hd
      have hk := (List.getElem?_eq_some_iff.1 hd).1
      by_cases hkl : k + 1 = rest.length
      · have := hlast d (by
          rw [show (c :: rest).length - 1 = k + 1 from by simp [hkl], List.getElem?_cons_succ]
          exact hd)
        rcases this with h | h | h
        · simp only [List.length_cons] at h
          omega
        · exact .inl h
        · exact .inr (.inl ⟨hkl, h⟩)
      · have := hmid (k + 1) d (by omega) (by simp only [List.length_cons]; omega) (by simpa using hd)
        rcases this with h | h
        · exact .inl h
        · exact .inr (.inr ⟨hkl, by simpa using h⟩))
    refine ⟨_, rfl, by simpa using h2.1, ?_⟩
    intro idx hi
    exact h2.2 idx (by rw [h2.1]; simpa using hi)

/-- `a[2, 4].b[3].c.x[2:2:6, 1]` with `a` and `x` of rank 2. -/
example : C116_claim [(2, [.index 2, .index 4]), (1, [.index 3]), (0, []), (2, [.range 2 2, .index 1])] :=
  C116_reads_partial _ (by simp) (by decide) (by intro c hc; cases hc; decide) (by
    intro k c h0 hk hc
    match k, h0 with
    | 1, _ => exact .inr (by decide)
    | 2, _ => cases hc; exact .inl rfl
    | k + 3, _ => simp at hk; omega)

/-- `a[2].b.x[3]` with `a` of rank 2. -/
example : C116_claim [(2, [.index 2]), (0, []), (1, [.index 3])] :=
  C116_reads_partial _ (by simp) (by decide) (by intro c hc; cases hc; decide) (by
    intro k c h0 hk hc
    match k, h0 with
    | 1, _ => cases hc; exact .inl rfl
    | k + 2, _ => simp at hk; omega)

example : element [(2, [.index 2]), (0, []), (1, [.index 3])] [5] = [[1, 5], [], [2]] := by decide

/-- `r.x[i]` with `x` of rank 2 is the column `i`, not the row. -/
theorem C116_column (i k : Int) : ∃ v, lowerRef [(0, []), (2, [.index i])] = some v ∧ v.rank = 1 ∧
    v.elem [k] = [[], [k, i - 1]] ∧ element [(0, []), (2, [.index i])] [k] = [[], [i - 1, k]] := by
  refine ⟨_, rfl, ?_, ?_, ?_⟩
  · simp [lowerRest, lowerSubscripts, view, fullSubs, component, lowerSub, VSub.dims]
  · simp [lowerRest, lowerSubscripts, view, fullSubs, component, lowerSub, viewIndex]
    rfl
  · simp [element, choose, free, keeps]

/-- `a.b[i].x` with `a` and `b` of rank 1: the index is used for `a`. -/
theorem C116_middle (i k : Int) : ∃ v, lowerRef [(1, []), (1, [.index i]), (0, [])] = some v ∧ v.rank = 1 ∧
    v.elem [k] = [[i - 1], [k], []] ∧ element [(1, []), (1, [.index i]), (0, [])] [k] = [[k], [i - 1], []] := by
  refine ⟨_, rfl, ?_, ?_, ?_⟩
  · simp [lowerRest, lowerSubscripts, view, fullSubs, component, lowerSub, VSub.dims]
  · simp [lowerRest, lowerSubscripts, view, fullSubs, component, lowerSub, viewIndex, VSub.dims]
    rfl
  · simp [element, choose, free, keeps]

/-- The full claim does not hold. -/
theorem C116_full_false : ¬ C116_full := by
  intro h
  obtain ⟨v, h1, _, h2⟩ := h [(0, []), (2, [.index 1])] (by simp) (by decide)
  obtain ⟨w, h3, _, h4, h5⟩ := C116_column 1 1
  rw [h1] at h3
  cases h3
  have := h2 [1] (by decide)
  rw [h4, h5] at this
  exact absurd this (by decide)

end Marco.Props
