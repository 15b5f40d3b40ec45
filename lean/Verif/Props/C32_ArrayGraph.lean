import Verif.Lemmas.DependencyGraph

/-! # C32 — the graph of the dependencies among array equations -/

namespace Marco.Props
open Marco Spec IndexSet AccessFn DepGraph

/-- C32 at full strength, for systems with affine accesses: whatever the order in which the threads
process the equations, the edges are the dependencies. -/
def C32_full : Prop :=
  ∀ (eqs : List ArrEq) (order : List Nat) (edges : List (Nat × Nat)), SystemOk ReadOk eqs →
    ArrayRun eqs order edges → ∀ i j, (i, j) ∈ edges ↔ ElemDepends eqs i j

/-- `for i in 0:1: y[i] = x[i, i]` and `x[0, 1] = ...`. -/
def C32_eqs : List ArrEq :=
  [⟨ofRanges [[⟨0, 2⟩]], [(1, .roto ⟨1, [.dim 0]⟩)], [(0, .roto diagMap)]⟩,
   ⟨ofRanges [[⟨0, 1⟩]], [(0, .affConst ⟨1, [.const 0, .const 1]⟩)], []⟩]

theorem C32_eqs_ok : SystemOk ReadOk C32_eqs := by
  refine ⟨⟨fun v => if v = 0 then 2 else 1, ?_⟩, ?_⟩
  · have hs : ∀ n : Int, 0 < n → SetOk 1 (ofRanges [[⟨0, n⟩]]) := fun n hn =>
      (ofRanges_spec (k := 1) (rs := [[⟨0, n⟩]]) (by simp [Ranked, Box.Valid, Range.Valid, hn])).1
    intro e he
    simp only [C32_eqs, List.mem_cons, List.not_mem_nil, or_false] at he
    rcases he with rfl | rfl
    · refine ⟨1, by decide, hs 2 (by decide), ?_⟩
      intro a ha
      simp only [List.cons_append, List.nil_append, List.mem_cons, List.not_mem_nil, or_false] at ha
      rcases ha with rfl | rfl
      · refine ⟨⟨rfl, by decide, ?_⟩, ?_, rfl, rfl, Or.inl ⟨_, rfl, diagMap_ok⟩⟩
        · simp [affineMap, diagMap, AExpr.Below, dims]
        · simp [affineMap, diagMap, AExpr.NoDiv]
      · refine ⟨⟨rfl, by decide, ?_⟩, ?_, rfl, rfl, Or.inl ⟨_, rfl, ⟨by decide, by decide, ?_⟩⟩⟩
        · simp [affineMap, AExpr.Below, dims]
        · simp [affineMap, AExpr.NoDiv]
        · intro e he
          simp only [List.mem_cons, List.not_mem_nil, or_false] at he
          subst he
          exact ⟨_, _, .dim (by decide)⟩
    · refine ⟨1, by decide, hs 1 (by decide), ?_⟩
      intro a ha
      simp only [List.nil_append, List.mem_cons, List.not_mem_nil, or_false] at ha
      subst ha
      refine ⟨⟨rfl, by decide, ?_⟩, ?_, rfl, rfl, Or.inr (Or.inl ⟨[0, 1], rfl⟩)⟩
      · simp [affineMap, AExpr.Below]
      · simp [affineMap, AExpr.NoDiv]
  · intro e he
    simp only [C32_eqs, List.mem_cons, List.not_mem_nil, or_false] at he
    rcases he with rfl | rfl <;> simp

/-- The property fails for a read access using an index twice: the first equation reads the diagonal
of `x`, and depends on the equation computing `x[0, 1]` according to the graph. -/
theorem C32_array_false : ¬ C32_full := by
  intro h
  obtain ⟨m, es, h1, h2, h3⟩ : ∃ m es, mapWrites C32_eqs [0, 1] = some m ∧
      allEdges m 0 C32_eqs = some es ∧ (0, 1) ∈ es := by
    have e : (mapWrites C32_eqs [0, 1]).bind (fun m => allEdges m 0 C32_eqs) = some [(0, 1)] := by
      decide +kernel
    rw [Option.bind_eq_some_iff] at e
    obtain ⟨m, e1, e2⟩ := e
    exact ⟨m, _, e1, e2, by simp⟩
  have hd := (h C32_eqs [0, 1] es C32_eqs_ok ⟨.refl _, m, es, h1, h2, .refl _⟩ 0 1).1 h3
  obtain ⟨ei, ej, hi, hj, r, hr, w, hw, -, q, hq1, hq2⟩ := hd
  simp only [C32_eqs, List.getElem?_cons_zero, Option.some.injEq, List.getElem?_cons_succ] at hi hj
  subst hi hj
  simp only [List.mem_singleton] at hr hw
  subst hr hw
  obtain ⟨p, hp, t, ht, hq⟩ := hq1
  obtain ⟨p', -, t', ht', hq'⟩ := hq2
  have hs : SetOk 1 (ofRanges [[⟨0, 2⟩]]) :=
    (ofRanges_spec (k := 1) (rs := [[⟨0, 2⟩]]) (by simp [Ranked, Box.Valid, Range.Valid])).1
  rcases hp with hp | ⟨h0, -⟩
  · have hl := has_length hs hp
    obtain ⟨x, rfl⟩ := List.length_eq_one_iff.1 hl
    have hm : MapsTo (.roto diagMap) [x] [x, x] := by
      rw [mapsTo_roto diagMap_ok (by simp [diagMap])]
      exact .cons rfl (.cons rfl .nil)
    obtain ⟨t2, ht2, hh⟩ := hm
    rw [ht] at ht2
    rw [Option.some.inj ht2, hh] at hq
    have hq2 : q = [0, 1] := by
      simp only [mapPoint, affinePoint, Option.map_eq_some_iff] at ht'
      obtain ⟨a, ha, rfl⟩ := ht'
      have : a = [0, 1] := by
        split_ifs at ha
        · simpa [AExpr.eval] using ha.symm
      subst this
      exact ((ofPoint_single (q := [0, 1]) (by simp)).2 q).1 hq'
    rw [hq] at hq2
    simp at hq2
    omega
  · exact absurd h0 (by decide)

/-- Every dependency is an edge, for all affine accesses. -/
theorem C32_complete (eqs : List ArrEq) (order : List Nat) (edges : List (Nat × Nat))
    (hok : SystemOk ReadOk eqs) (h : ArrayRun eqs order edges) (i j : Nat)
    (hd : ElemDepends eqs i j) : (i, j) ∈ edges := by
  obtain ⟨rk, hrk⟩ := hok.acc
  rw [arrayRun_edges (rk := rk) (fun e he a ha t ht => by
    obtain ⟨n, hn, hs, hacc⟩ := hrk e he
    exact (image_cover hn (hacc a ha) hs ht).1) hok.oneVar h]
  obtain ⟨ei, ej, hi, hj, r, hr, w, hw, hrw, q, hq1, hq2⟩ := hd
  have key : ∀ e ∈ eqs, ∀ a ∈ e.reads ++ e.writes, InImage a.2 e.it q → Touch e a.2 q := by
    intro e he a ha hq
    obtain ⟨n, hn, hs, hacc⟩ := hrk e he
    obtain ⟨t, ht⟩ := mapSet_defined (hacc a ha) hs
    exact ⟨t, ht, (image_cover hn (hacc a ha) hs ht).2 q hq⟩
  exact ⟨ei, ej, hi, hj, r, hr, w, hw, hrw, q,
    key ei (List.mem_of_getElem? hi) r (by simp [hr]) hq1,
    key ej (List.mem_of_getElem? hj) w (by simp [hw]) hq2⟩

/-- The edges do not depend on the orders. -/
theorem C32_order (eqs : List ArrEq) (o o' : List Nat) (edges edges' : List (Nat × Nat))
    (hok : SystemOk ReadOk eqs) (h : ArrayRun eqs o edges) (h' : ArrayRun eqs o' edges')
    (x : Nat × Nat) : x ∈ edges ↔ x ∈ edges' := by
  obtain ⟨rk, hrk⟩ := hok.acc
  have key : ∀ e ∈ eqs, ∀ a ∈ e.reads ++ e.writes, ∀ t, a.2.mapSet e.it = some t →
      SetOk (rk a.1) t := fun e he a ha t ht => by
    obtain ⟨n, hn, hs, hacc⟩ := hrk e he
    exact (image_cover hn (hacc a ha) hs ht).1
  obtain ⟨i, j⟩ := x
  rw [arrayRun_edges key hok.oneVar h, arrayRun_edges key hok.oneVar h']

/-- The construction never fails, and the edges are the dependencies, provided no offset access uses
an index twice. Missing from `C32_full`: accesses such as `x[i, i]`, for which it is false. -/
theorem C32_array_partial (eqs : List ArrEq) (hok : SystemOk ReadOnceOk eqs) (order : List Nat)
    (ho : order.Perm (List.range eqs.length)) :
    (∃ edges, ArrayRun eqs order edges) ∧
    ∀ edges, ArrayRun eqs order edges → ∀ i j, (i, j) ∈ edges ↔ ElemDepends eqs i j := by
  obtain ⟨rk, hrk⟩ := hok.acc
  refine ⟨run_exists (fun e he a ha => ?_) ho, fun edges h i j => ?_⟩
  · obtain ⟨n, hn, hs, hacc⟩ := hrk e he
    exact mapSet_defined (hacc a ha).1 hs
  · have key : ∀ e ∈ eqs, ∀ a ∈ e.reads ++ e.writes, ∀ q, Touch e a.2 q ↔ InImage a.2 e.it q := by
      intro e he a ha q
      obtain ⟨n, hn, hs, hacc⟩ := hrk e he
      obtain ⟨t, ht⟩ := mapSet_defined (hacc a ha).1 hs
      rw [← (image_exact hn (hacc a ha) hs ht).2]
      constructor
      · rintro ⟨t', ht', hq⟩
        rw [ht] at ht'
        rw [Option.some.inj ht']; exact hq
      · exact fun hq => ⟨t, ht, hq⟩
    rw [arrayRun_edges (rk := rk) (fun e he a ha t ht => by
      obtain ⟨n, hn, hs, hacc⟩ := hrk e he
      exact (image_cover hn (hacc a ha).1 hs ht).1) hok.oneVar h]
    constructor
    · rintro ⟨ei, ej, hi, hj, r, hr, w, hw, hrw, q, hq1, hq2⟩
      exact ⟨ei, ej, hi, hj, r, hr, w, hw, hrw, q,
        (key ei (List.mem_of_getElem? hi) r (by simp [hr]) q).1 hq1,
        (key ej (List.mem_of_getElem? hj) w (by simp [hw]) q).1 hq2⟩
    · rintro ⟨ei, ej, hi, hj, r, hr, w, hw, hrw, q, hq1, hq2⟩
      exact ⟨ei, ej, hi, hj, r, hr, w, hw, hrw, q,
        (key ei (List.mem_of_getElem? hi) r (by simp [hr]) q).2 hq1,
        (key ej (List.mem_of_getElem? hj) w (by simp [hw]) q).2 hq2⟩

/-- `for i in 0:2: x[i] = y[i + 1]`, `for i in 0:3: y[i] = ...` and `for i in 3:4: x[i] = x[i - 3]`. -/
def C32_sample : List ArrEq :=
  [⟨ofRanges [[⟨0, 3⟩]], [(0, .roto ⟨1, [.dim 0]⟩)], [(1, .roto ⟨1, [.add (.dim 0) (.const 1)]⟩)]⟩,
   ⟨ofRanges [[⟨0, 4⟩]], [(1, .roto ⟨1, [.dim 0]⟩)], []⟩,
   ⟨ofRanges [[⟨3, 5⟩]], [(0, .roto ⟨1, [.dim 0]⟩)],
     [(0, .roto ⟨1, [.add (.dim 0) (.const (-3))]⟩)]⟩]

theorem offset_readOnce (e : AExpr) (he : e = .dim 0 ∨ ∃ c, e = .add (.dim 0) (.const c)) :
    ReadOnceOk 1 1 (.roto ⟨1, [e]⟩) := by
  refine ⟨⟨⟨rfl, by simp [affineMap], ?_⟩, ?_, rfl, rfl, Or.inl ⟨_, rfl, by simp, by simp, ?_⟩⟩, ?_⟩
  · rcases he with rfl | ⟨c, rfl⟩ <;> simp [affineMap, AExpr.Below, dims]
  · rcases he with rfl | ⟨c, rfl⟩ <;> simp [affineMap, AExpr.NoDiv]
  · intro e' he'
    simp only [List.mem_singleton] at he'
    subst he'
    rcases he with rfl | ⟨c, rfl⟩
    · exact ⟨_, _, .dim (by decide)⟩
    · exact ⟨_, _, .addR c (by simp)⟩
  · intro m hm i j a b d c c' h1 h2 _ _
    simp only [roto.injEq] at hm
    subst hm
    have hi : i = 0 := by
      by_contra hc
      rw [List.getElem?_eq_none (by simp; omega)] at h1; cases h1
    have hj : j = 0 := by
      by_contra hc
      rw [List.getElem?_eq_none (by simp; omega)] at h2; cases h2
    omega

theorem C32_sample_ok : SystemOk ReadOnceOk C32_sample := by
  refine ⟨⟨fun _ => 1, ?_⟩, ?_⟩
  · have hs : ∀ a b : Int, a < b → SetOk 1 (ofRanges [[⟨a, b⟩]]) := fun a b h =>
      (ofRanges_spec (k := 1) (rs := [[⟨a, b⟩]]) (by simp [Ranked, Box.Valid, Range.Valid, h])).1
    have h1 := offset_readOnce (.dim 0) (Or.inl rfl)
    have h2 := fun c => offset_readOnce (.add (.dim 0) (.const c)) (Or.inr ⟨c, rfl⟩)
    intro e he
    simp only [C32_sample, List.mem_cons, List.not_mem_nil, or_false] at he
    rcases he with rfl | rfl | rfl
    · exact ⟨1, by decide, hs _ _ (by decide), by simpa using ⟨h2 1, h1⟩⟩
    · exact ⟨1, by decide, hs _ _ (by decide), by simpa using h1⟩
    · exact ⟨1, by decide, hs _ _ (by decide), by simpa using ⟨h2 (-3), h1⟩⟩
  · intro e he
    simp only [C32_sample, List.mem_cons, List.not_mem_nil, or_false] at he
    rcases he with rfl | rfl | rfl <;> simp

-- Two processing orders of this system; all edges are found in both.
example : (mapWrites C32_sample [0, 1, 2]).bind (fun m => allEdges m 0 C32_sample)
      = some [(0, 1), (2, 0)] ∧
    (mapWrites C32_sample [2, 1, 0]).bind (fun m => allEdges m 0 C32_sample)
      = some [(0, 1), (2, 0)] := by decide +kernel

example : ElemDepends C32_sample 2 0 ∧ ¬ ElemDepends C32_sample 0 2 := by
  obtain ⟨⟨edges, ho, m, es, h1, h2, h3⟩, h⟩ :=
    C32_array_partial C32_sample C32_sample_ok [0, 1, 2] (.refl _)
  have e : (mapWrites C32_sample [0, 1, 2]).bind (fun m => allEdges m 0 C32_sample)
      = some [(0, 1), (2, 0)] := by decide +kernel
  rw [h1, Option.bind_some, h2, Option.some.injEq] at e
  subst e
  have hr := h edges ⟨ho, m, _, h1, h2, h3⟩
  rw [← hr, ← hr, h3.mem_iff, h3.mem_iff]
  decide

end Marco.Props
