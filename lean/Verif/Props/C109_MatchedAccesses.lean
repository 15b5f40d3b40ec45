import Verif.Lemmas.MatchedAccesses

/-!
# C109: which accesses of a matched equation are writes, and which are reads

The matching pass stores in each instance the name and the indices of the variable it is matched with. The later passes
take as the writes of the instance its accesses to this variable whose elements all are matched, and as the reads the
others. A write is to be the access that gives the matched element in each scalar equation; there is to be one; and what
is not a read is to use nothing but the matched element.

This is false: the matches of an equation with a variable are put together in one instance although they are along
different accesses, and then no access may be a write (`C109_no_write`: a model with a single perfect matching). An access
whose elements all are matched, but by other scalar equations of the instance, is taken as a write, and is not in the reads
(`C109_read_lost`). Proved: the claim holds exactly if some access gives the matched element in each scalar equation and
each other access to the variable uses some element that is not matched in the instance. So it holds for scalar variables, for
scalar equations, and for variables that the equation accesses in one way, for all models and all perfect matchings; the
graph is the one built from the accesses.
-/

namespace Marco.Props
open Marco Matching Mat Spec Marco.MatchPass Marco.Spec.MatchPass

/-- What the accesses of the instance are to be: `e` matched with `b` by the pairs `s`. -/
def C109_claim {P : Type} (accs : List Acc) (e : Inst P) (b : VBridge) (s : Mat) : Prop :=
  writeAccesses accs (instance_ e b s) ≠ [] ∧
  (∀ a ∈ writeAccesses accs (instance_ e b s), Along e b s a) ∧
  (∀ a ∈ accs, a ∉ readAccesses accs (instance_ e b s) → Along e b s a) ∧
  ∀ a ∈ readAccesses accs (instance_ e b s), ¬ Along e b s a

/-- The claim, in full: for all models and perfect matchings. -/
def C109_full : Prop := ∀ (accs : Nat → List Acc) (bs : List VBridge) (es : List (Inst Unit)) (m : Nat → Mat),
  EqsOk es → AccsOk accs bs es → Perfect (buildGraph bs es (edgesOf accs bs es)) m →
  ∀ i j e b, es[i]? = some e → bs[j]? = some b → pairs (buildGraph bs es (edgesOf accs bs es)) m i j ≠ ∅ →
    C109_claim (accs e.template) e b (pairs (buildGraph bs es (edgesOf accs bs es)) m i j)

section
variable {P : Type} {accs : Nat → List Acc} {bs : List VBridge} {es : List (Inst P)} {m : Nat → Mat}

/-- An equation that is not matched writes nothing: all its accesses are reads. -/
theorem C109_unmatched (l : List Acc) (e : Inst P) (h : e.matched = none) (a : Acc) :
    a ∉ writeAccesses l e ∧ (a ∈ readAccesses l e ↔ a ∈ l) := by
  constructor
  · simp [writeAccesses, h]
  · simp [readAccesses, h]

/-- When the claim holds. -/
theorem C109_accesses_partial (ha : AccsOk accs bs es) (hm : Perfect (buildGraph bs es (edgesOf accs bs es)) m)
    {i j : Nat} {e : Inst P} {b : VBridge} (hi : es[i]? = some e) (hj : bs[j]? = some b)
    (hs : pairs (buildGraph bs es (edgesOf accs bs es)) m i j ≠ ∅) :
    C109_claim (accs e.template) e b (pairs (buildGraph bs es (edgesOf accs bs es)) m i j) ↔
    (∃ a ∈ accs e.template, Along e b (pairs (buildGraph bs es (edgesOf accs bs es)) m i j) a) ∧
    ∀ a ∈ accs e.template, a.var = b.1 → Along e b (pairs (buildGraph bs es (edgesOf accs bs es)) m i j) a ∨
      ∃ p q, (p, q) ∈ pairs (buildGraph bs es (edgesOf accs bs es)) m i j ∧
        ∀ p' q', (p', q') ∈ pairs (buildGraph bs es (edgesOf accs bs es)) m i j → uses e a p ≠ scalarVar b q' := by
  have hinc := pairs_incidence hm hi hj
  generalize pairs (buildGraph bs es (edgesOf accs bs es)) m i j = s at hs hinc
  have ok := fun a h => ha e (List.mem_of_getElem? hi) a h b (List.mem_of_getElem? hj)
  have hmask : ∀ p q, (p, q) ∈ s → q ∈ mask b.2 := fun p q h => (mem_incidence.1 (hinc h)).2.1
  have along : ∀ a ∈ accs e.template, (Along e b s a ↔ a.var = b.1 ∧ ∀ p q, (p, q) ∈ s → conv e.inductions a p = q) := by
    intro a hmem
    constructor
    · intro h
      obtain ⟨⟨p, q⟩, hpq⟩ := Finset.nonempty_iff_ne_empty.2 hs
      exact ⟨((uses_iff (ok a hmem) (hmask _ _ hpq)).1 (h p q hpq)).1, fun p q hpq =>
        ((uses_iff (ok a hmem) (hmask _ _ hpq)).1 (h p q hpq)).2⟩
    · rintro ⟨hv, h⟩ p q hpq
      exact (uses_iff (ok a hmem) (hmask _ _ hpq)).2 ⟨hv, h p q hpq⟩
  -- an access along the matches is a write
  have toWrite : ∀ a ∈ accs e.template, Along e b s a →
      a.var = b.1 ∧ (b.2 = ∅ ∨ s.eqsOf.image (conv e.inductions a) ⊆ s.varsOf) := by
    intro a hmem h
    obtain ⟨hv, h⟩ := (along a hmem).1 h
    refine ⟨hv, .inr ?_⟩
    intro x hx
    obtain ⟨p, hp, rfl⟩ := Finset.mem_image.1 hx
    obtain ⟨q, hq⟩ := mem_eqsOf.1 hp
    exact mem_varsOf.2 ⟨p, by rw [h p q hq]; exact hq⟩
  have notRead : ∀ a ∈ accs e.template, (a ∉ readAccesses (accs e.template) (instance_ e b s) ↔
      a ∈ writeAccesses (accs e.template) (instance_ e b s)) := by
    intro a hmem
    rw [mem_reads hs (ok a hmem), mem_writes hs (ok a hmem)]
    exact ⟨fun h => ⟨hmem, not_not.1 fun h' => h ⟨hmem, h'⟩⟩, fun h h' => h'.2 h.2⟩
  have wmem : ∀ a, a ∈ writeAccesses (accs e.template) (instance_ e b s) → a ∈ accs e.template := by
    intro a h
    exact (List.mem_filter.1 h).1
  have rmem : ∀ a, a ∈ readAccesses (accs e.template) (instance_ e b s) → a ∈ accs e.template := by
    intro a h
    exact (List.mem_filter.1 h).1
  constructor
  · rintro ⟨h1, h2, h3, h4⟩
    refine ⟨?_, ?_⟩
    · obtain ⟨a, l, hl⟩ := List.exists_cons_of_ne_nil h1
      have : a ∈ writeAccesses (accs e.template) (instance_ e b s) := by rw [hl]; simp
      exact ⟨a, wmem a this, h2 a this⟩
    · intro a hmem hv
      by_cases hw : a ∈ writeAccesses (accs e.template) (instance_ e b s)
      · exact .inl (h2 a hw)
      · refine .inr ?_
        rw [mem_writes hs (ok a hmem)] at hw
        have hw : ¬ (b.2 = ∅ ∨ s.eqsOf.image (conv e.inductions a) ⊆ s.varsOf) := fun h => hw ⟨hmem, hv, h⟩
        rw [not_or] at hw
        obtain ⟨x, hx, hnx⟩ := Finset.not_subset.1 hw.2
        obtain ⟨p, hp, rfl⟩ := Finset.mem_image.1 hx
        obtain ⟨q, hq⟩ := mem_eqsOf.1 hp
        refine ⟨p, q, hq, fun p' q' h' h => hnx ?_⟩
        rw [((uses_iff (ok a hmem) (hmask _ _ h')).1 h).2]
        exact mem_varsOf.2 ⟨p', h'⟩
  · rintro ⟨⟨a0, hm0, h0⟩, h2⟩
    have hw : ∀ a ∈ writeAccesses (accs e.template) (instance_ e b s), Along e b s a := by
      intro a hw
      obtain ⟨hmem, hv, hw⟩ := (mem_writes hs (ok a (wmem a hw))).1 hw
      rcases h2 a hmem hv with h | ⟨p, q, hpq, h⟩
      · exact h
      · exfalso
        rcases hw with hb | hw
        · refine h p q hpq ((uses_iff (ok a hmem) (hmask _ _ hpq)).2 ⟨hv, ?_⟩)
          have hq := hmask _ _ hpq
          rw [hb, mask_empty, Finset.mem_singleton] at hq
          simp [conv, (ok a hmem hv).2 hb, hq]
        · obtain ⟨p', hp'⟩ := mem_varsOf.1 (hw (Finset.mem_image.2 ⟨p, mem_eqsOf.2 ⟨q, hpq⟩, rfl⟩))
          exact h p' _ hp' ((uses_iff (ok a hmem) (hmask _ _ hp')).2 ⟨hv, rfl⟩)
    refine ⟨?_, hw, fun a hmem h => hw a ((notRead a hmem).1 h), ?_⟩
    · intro h
      have : a0 ∈ writeAccesses (accs e.template) (instance_ e b s) :=
        (mem_writes hs (ok a0 hm0)).2 ⟨hm0, toWrite a0 hm0 h0⟩
      rw [h] at this
      cases this
    · intro a hr hal
      exact ((mem_reads hs (ok a (rmem a hr))).1 hr).2 (toWrite a (rmem a hr) hal)

/-- An access of each match. -/
theorem C109_exists (ha : AccsOk accs bs es) (hm : Perfect (buildGraph bs es (edgesOf accs bs es)) m)
    {i j : Nat} {e : Inst P} {b : VBridge} (hi : es[i]? = some e) (hj : bs[j]? = some b) {p q : Point}
    (h : (p, q) ∈ pairs (buildGraph bs es (edgesOf accs bs es)) m i j) :
    ∃ a ∈ accs e.template, a.var = b.1 ∧ uses e a p = scalarVar b q := by
  obtain ⟨-, hq, a, hmem, hv, h⟩ := mem_incidence.1 (pairs_incidence hm hi hj h)
  exact ⟨a, hmem, hv, (uses_iff (ha e (List.mem_of_getElem? hi) a hmem b (List.mem_of_getElem? hj)) hq).2 ⟨hv, h⟩⟩

/-- Scalar variables. -/
theorem C109_scalar_variable_partial (ha : AccsOk accs bs es)
    (hm : Perfect (buildGraph bs es (edgesOf accs bs es)) m)
    {i j : Nat} {e : Inst P} {b : VBridge} (hi : es[i]? = some e) (hj : bs[j]? = some b)
    (hs : pairs (buildGraph bs es (edgesOf accs bs es)) m i j ≠ ∅) (hb : b.2 = ∅) :
    C109_claim (accs e.template) e b (pairs (buildGraph bs es (edgesOf accs bs es)) m i j) := by
  have all : ∀ a ∈ accs e.template, a.var = b.1 →
      Along e b (pairs (buildGraph bs es (edgesOf accs bs es)) m i j) a := by
    intro a hmem hv p q _
    have := (ha e (List.mem_of_getElem? hi) a hmem b (List.mem_of_getElem? hj) hv).2 hb
    simp [uses, scalarVar, hv, hb, this]
  refine (C109_accesses_partial ha hm hi hj hs).2 ⟨?_, fun a hmem hv => .inl (all a hmem hv)⟩
  obtain ⟨⟨p, q⟩, hpq⟩ := Finset.nonempty_iff_ne_empty.2 hs
  obtain ⟨a, hmem, hv, -⟩ := C109_exists ha hm hi hj hpq
  exact ⟨a, hmem, all a hmem hv⟩

/-- Scalar equations. -/
theorem C109_scalar_equation_partial (he : EqsOk es) (ha : AccsOk accs bs es)
    (hm : Perfect (buildGraph bs es (edgesOf accs bs es)) m)
    {i j : Nat} {e : Inst P} {b : VBridge} (hi : es[i]? = some e) (hj : bs[j]? = some b)
    (hs : pairs (buildGraph bs es (edgesOf accs bs es)) m i j ≠ ∅) (h0 : e.inductions = 0) :
    C109_claim (accs e.template) e b (pairs (buildGraph bs es (edgesOf accs bs es)) m i j) := by
  obtain ⟨⟨p, q⟩, hpq⟩ := Finset.nonempty_iff_ne_empty.2 hs
  have hp : ∀ p' q', (p', q') ∈ pairs (buildGraph bs es (edgesOf accs bs es)) m i j → p' = [0] := by
    intro p' q' h
    have := (mem_incidence.1 (pairs_incidence hm hi hj h)).1
    rwa [(he e (List.mem_of_getElem? hi)).1 h0, mask_empty, Finset.mem_singleton] at this
  have one : ∀ p' q', (p', q') ∈ pairs (buildGraph bs es (edgesOf accs bs es)) m i j → p' = p ∧ q' = q := by
    intro p' q' h
    have e1 : p' = p := (hp _ _ h).trans (hp _ _ hpq).symm
    subst e1
    exact ⟨rfl, pairs_row (edgesOf_ok accs bs es) hm h hpq⟩
  have key : ∀ a, uses e a p = scalarVar b q → Along e b (pairs (buildGraph bs es (edgesOf accs bs es)) m i j) a := by
    intro a h p' q' h'
    obtain ⟨rfl, rfl⟩ := one _ _ h'
    exact h
  refine (C109_accesses_partial ha hm hi hj hs).2 ⟨?_, ?_⟩
  · obtain ⟨a, hmem, -, h⟩ := C109_exists ha hm hi hj hpq
    exact ⟨a, hmem, key a h⟩
  · intro a _ _
    by_cases h : uses e a p = scalarVar b q
    · exact .inl (key a h)
    · refine .inr ⟨p, q, hpq, ?_⟩
      intro p' q' h'
      obtain ⟨rfl, rfl⟩ := one _ _ h'
      exact h

/-- Variables that the equation accesses in one way. -/
theorem C109_one_access_partial (ha : AccsOk accs bs es)
    (hm : Perfect (buildGraph bs es (edgesOf accs bs es)) m)
    {i j : Nat} {e : Inst P} {b : VBridge} (hi : es[i]? = some e) (hj : bs[j]? = some b)
    (hs : pairs (buildGraph bs es (edgesOf accs bs es)) m i j ≠ ∅)
    (h1 : ∀ a ∈ accs e.template, ∀ a' ∈ accs e.template, a.var = b.1 → a'.var = b.1 → a = a') :
    C109_claim (accs e.template) e b (pairs (buildGraph bs es (edgesOf accs bs es)) m i j) := by
  have all : ∀ a ∈ accs e.template, a.var = b.1 →
      Along e b (pairs (buildGraph bs es (edgesOf accs bs es)) m i j) a := by
    intro a hmem hv p q hpq
    obtain ⟨a', hmem', hv', h⟩ := C109_exists ha hm hi hj hpq
    rw [h1 a hmem a' hmem' hv hv']
    exact h
  refine (C109_accesses_partial ha hm hi hj hs).2 ⟨?_, fun a hmem hv => .inl (all a hmem hv)⟩
  obtain ⟨⟨p, q⟩, hpq⟩ := Finset.nonempty_iff_ne_empty.2 hs
  obtain ⟨a, hmem, hv, -⟩ := C109_exists ha hm hi hj hpq
  exact ⟨a, hmem, all a hmem hv⟩

end

namespace C109_Sample

/-- `Real x[4]`. -/
def bs : List VBridge := [("x", {[0], [1], [2], [3]})]

/-- `for i in 1:2 loop x[i] + x[i+2] = 0`, and the equations of `x[2]` and `x[3]`. -/
def es : List (Inst Unit) := [⟨0, 1, {[0], [1]}, none, ()⟩, ⟨1, 0, ∅, none, ()⟩, ⟨2, 0, ∅, none, ()⟩]

/-- The accesses. -/
def accs : Nat → List Acc
  | 0 => [⟨"x", false, id⟩, ⟨"x", false, fun p => p.map (· + 2)⟩]
  | 1 => [⟨"x", false, fun _ => [1]⟩]
  | 2 => [⟨"x", false, fun _ => [2]⟩]
  | _ => []

/-- The graph. -/
abbrev G := buildGraph bs es (edgesOf accs bs es)

/-- The matching. -/
def m : Nat → Mat
  | 0 => {([0], [0]), ([1], [3])}
  | 1 => {([0], [1])}
  | 2 => {([0], [2])}
  | _ => ∅

/-- `Real x[3]; Real y`. -/
def bs' : List VBridge := [("x", {[0], [1], [2]}), ("y", ∅)]

/-- `for i in 1:3 loop x[i] = 2 * x[4-i] + y`, and `y = 1`. -/
def es' : List (Inst Unit) := [⟨0, 1, {[0], [1], [2]}, none, ()⟩, ⟨1, 0, ∅, none, ()⟩]

/-- The accesses. -/
def accs' : Nat → List Acc
  | 0 => [⟨"x", false, id⟩, ⟨"x", false, fun p => p.map (2 - ·)⟩, ⟨"y", true, id⟩]
  | 1 => [⟨"y", true, id⟩]
  | _ => []

/-- The graph. -/
abbrev G' := buildGraph bs' es' (edgesOf accs' bs' es')

/-- The matching. -/
def m' : Nat → Mat
  | 0 => {([0], [0]), ([1], [1]), ([2], [2])}
  | 2 => {([0], [0])}
  | _ => ∅

end C109_Sample
open C109_Sample

/-- The matching of the first sample is perfect. -/
theorem C109_sample_perfect : Perfect G m := by
  refine perfect_of (by decide) ?_ (by decide) (by decide)
  intro k hk
  match k, hk with
  | 0, hk => exact absurd (by decide) hk
  | 1, hk => exact absurd (by decide) hk
  | 2, hk => exact absurd (by decide) hk
  | _ + 3, _ => rfl

/-- The matching of the second sample is perfect. -/
theorem C109_sample_perfect' : Perfect G' m' := by
  refine perfect_of (by decide) ?_ (by decide) (by decide)
  intro k hk
  match k, hk with
  | 0, hk => exact absurd (by decide) hk
  | 1, hk => exact absurd (by decide) hk
  | 2, hk => exact absurd (by decide) hk
  | _ + 3, _ => rfl

/-- The hypotheses on the samples. -/
theorem C109_sample_ok : EqsOk es ∧ AccsOk accs bs es ∧ EqsOk es' ∧ AccsOk accs' bs' es' := by
  refine ⟨by simp [EqsOk, es], ?_, by simp [EqsOk, es'], ?_⟩
  · simp [AccsOk, es, bs, accs]
  · simp [AccsOk, es', bs', accs']

/-- Every perfect matching of the first sample gives an instance without writes. -/
theorem C109_no_write (m0 : Nat → Mat) (h : Perfect G m0) :
    pairs G m0 0 0 = {([0], [0]), ([1], [3])} ∧
    writeAccesses (accs 0) (instance_ es[0] bs[0] (pairs G m0 0 0)) = [] := by
  have edge : ∀ k x, x ∈ m0 k → k < 3 := by
    intro k x hx
    by_contra hk
    have := h.1 k hx
    have hk' : ¬ k < (edgesOf accs bs es).length := hk
    simp [buildGraph, hk'] at this
  have i0 : m0 0 ⊆ {([0], [0]), ([0], [2]), ([1], [1]), ([1], [3])} := (h.1 0).trans (by decide)
  have i1 : m0 1 ⊆ {([0], [1])} := (h.1 1).trans (by decide)
  have i2 : m0 2 ⊆ {([0], [2])} := (h.1 2).trans (by decide)
  have r : ∀ i < 3, ∀ p ∈ (G.node (.eq i)).idx, ∃ q, (p, q) ∈ m0 i := by
    intro i hi p hp
    obtain ⟨⟨k, q⟩, ⟨h1, h2⟩, -⟩ := h.2.1 i hi p hp
    have hk := edge k _ h2
    have : k = i := by
      dsimp only at h1
      rw [← h1]
      match k, hk with
      | 0, _ => rfl
      | 1, _ => rfl
      | 2, _ => rfl
    subst this
    exact ⟨q, h2⟩
  have c : ∀ q ∈ (G.node (.var 0)).idx, ∀ k k' p p', (p, q) ∈ m0 k → (p', q) ∈ m0 k' → k = k' := by
    intro q hq k k' p p' h1 h2
    have v : ∀ k < 3, (G.edge k).var = 0 := by decide
    have := (h.2.2 0 (by decide) q hq).unique (y₁ := (k, p)) (y₂ := (k', p')) ⟨v _ (edge _ _ h1), h1⟩
      ⟨v _ (edge _ _ h2), h2⟩
    exact (Prod.mk.inj this).1
  have m1 : ([0], [1]) ∈ m0 1 := by
    obtain ⟨q, hq⟩ := r 1 (by decide) [0] (by decide)
    have := Finset.mem_singleton.1 (i1 hq)
    rwa [this] at hq
  have m2 : ([0], [2]) ∈ m0 2 := by
    obtain ⟨q, hq⟩ := r 2 (by decide) [0] (by decide)
    have := Finset.mem_singleton.1 (i2 hq)
    rwa [this] at hq
  have n1 : ([1], [1]) ∉ m0 0 := fun hx => absurd (c [1] (by decide) _ _ _ _ hx m1) (by decide)
  have n2 : ([0], [2]) ∉ m0 0 := fun hx => absurd (c [2] (by decide) _ _ _ _ hx m2) (by decide)
  have a0 : ([0], [0]) ∈ m0 0 := by
    obtain ⟨q, hq⟩ := r 0 (by decide) [0] (by decide)
    have := i0 hq
    simp only [Finset.mem_insert, Finset.mem_singleton, Prod.mk.injEq] at this
    rcases this with ⟨-, rfl⟩ | ⟨-, rfl⟩ | ⟨h, -⟩ | ⟨h, -⟩
    · exact hq
    · exact absurd hq n2
    · exact absurd h (by decide)
    · exact absurd h (by decide)
  have a1 : ([1], [3]) ∈ m0 0 := by
    obtain ⟨q, hq⟩ := r 0 (by decide) [1] (by decide)
    have := i0 hq
    simp only [Finset.mem_insert, Finset.mem_singleton, Prod.mk.injEq] at this
    rcases this with ⟨h, -⟩ | ⟨h, -⟩ | ⟨-, rfl⟩ | ⟨-, rfl⟩
    · exact absurd h (by decide)
    · exact absurd h (by decide)
    · exact absurd hq n1
    · exact hq
  have e0 : pairs G m0 0 0 = {([0], [0]), ([1], [3])} := by
    ext ⟨p, q⟩
    rw [mem_pairs]
    constructor
    · rintro ⟨k, hk, h1, -, h2⟩
      have hk : k < 3 := hk
      have : k = 0 := by
        rw [← h1]
        match k, hk with
        | 0, _ => rfl
        | 1, _ => rfl
        | 2, _ => rfl
      subst this
      have := i0 h2
      simp only [Finset.mem_insert, Finset.mem_singleton] at this ⊢
      rcases this with h | h | h | h
      · exact .inl h
      · rw [h] at h2; exact absurd h2 n2
      · rw [h] at h2; exact absurd h2 n1
      · exact .inr h
    · intro hx
      simp only [Finset.mem_insert, Finset.mem_singleton, Prod.mk.injEq] at hx
      refine ⟨0, by decide, by decide, by decide, ?_⟩
      rcases hx with ⟨rfl, rfl⟩ | ⟨rfl, rfl⟩
      · exact a0
      · exact a1
  refine ⟨e0, ?_⟩
  rw [e0]
  have : (writeAccesses (accs 0) (instance_ es[0] bs[0] {([0], [0]), ([1], [3])})).length = 0 := by decide
  exact List.length_eq_zero_iff.1 this

/-- The second sample: the mirrored access uses element 2 in the equation of index 0, which is matched with element 0, but
is not a read. -/
theorem C109_read_lost : (readAccesses (accs' 0) (instance_ es'[0] bs'[0] (pairs G' m' 0 0))).map (·.var) = ["y"] ∧
    (writeAccesses (accs' 0) (instance_ es'[0] bs'[0] (pairs G' m' 0 0))).length = 2 ∧
    (accs' 0)[1]?.map (fun a => uses es'[0] a [0]) = some ("x", [2]) ∧ ([0], [0]) ∈ pairs G' m' 0 0 := by
  refine ⟨by decide, by decide, by decide, by decide⟩

/-- The claim is false. -/
theorem C109_full_false : ¬ C109_full := by
  intro h
  have hp := C109_sample_perfect
  have hs : pairs G m 0 0 ≠ ∅ := by rw [(C109_no_write m hp).1]; decide
  exact (h accs bs es m C109_sample_ok.1 C109_sample_ok.2.1 hp 0 0 es[0] bs[0] rfl rfl hs).1 (C109_no_write m hp).2

/-- Also where there are writes. -/
theorem C109_second_false : EqsOk es' ∧ AccsOk accs' bs' es' ∧ Perfect G' m' ∧
    ¬ C109_claim (accs' 0) es'[0] bs'[0] (pairs G' m' 0 0) := by
  refine ⟨C109_sample_ok.2.2.1, C109_sample_ok.2.2.2, C109_sample_perfect', ?_⟩
  intro h
  have hm := C109_sample_perfect'
  have h2 := ((C109_accesses_partial (accs := accs') (i := 0) (j := 0) C109_sample_ok.2.2.2 hm rfl rfl (by decide)).1 h).2
    ⟨"x", false, fun p => p.map (2 - ·)⟩ (by simp [accs']) rfl
  rcases h2 with h2 | ⟨p, q, hpq, h2⟩
  · have := h2 [0] [0] (by decide)
    revert this
    decide
  · have : p ∈ ({[0], [1], [2]} : Finset Point) := by
      have : (pairs G' m' 0 0).eqsOf ⊆ {[0], [1], [2]} := by decide
      exact this (mem_eqsOf.2 ⟨q, hpq⟩)
    simp only [Finset.mem_insert, Finset.mem_singleton] at this
    rcases this with rfl | rfl | rfl
    · exact h2 [2] [2] (by decide) (by decide)
    · exact h2 [1] [1] (by decide) (by decide)
    · exact h2 [0] [0] (by decide) (by decide)

/-- The hypotheses of the theorems above: `y` is matched with a scalar equation that accesses it once, and the claim holds. -/
example : C109_claim (accs' 1) es'[1] bs'[1] (pairs G' m' 1 1) :=
  C109_scalar_variable_partial (accs := accs') (i := 1) (j := 1) C109_sample_ok.2.2.2 C109_sample_perfect' rfl rfl
    (by decide) rfl

/-- Scalar equations that use elements of an array: the equations of `x[2]` and `x[3]` in the first sample. -/
example : C109_claim (accs 2) es[2] bs[0] (pairs G m 2 0) :=
  C109_scalar_equation_partial (accs := accs) (i := 2) (j := 0) C109_sample_ok.1 C109_sample_ok.2.1 C109_sample_perfect
    rfl rfl (by decide) rfl

/-- One access. -/
example : C109_claim (accs 1) es[1] bs[0] (pairs G m 1 0) :=
  C109_one_access_partial (accs := accs) (i := 1) (j := 0) C109_sample_ok.2.1 C109_sample_perfect rfl rfl (by decide)
    (by simp [accs, es])

/-- An equation before the matching. -/
example : ∀ a, a ∉ writeAccesses (accs 0) es[0] ∧ (a ∈ readAccesses (accs 0) es[0] ↔ a ∈ accs 0) :=
  C109_unmatched (accs 0) es[0] rfl

end Marco.Props
