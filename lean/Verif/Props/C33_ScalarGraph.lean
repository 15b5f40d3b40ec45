import Verif.Lemmas.DependencyGraph
import Verif.Props.C32_ArrayGraph

/-! # C33 — the graph of the dependencies among scalar equations -/

namespace Marco.Props
open Marco Spec IndexSet AccessFn DepGraph

/-- C33 at full strength: the edges are the dependencies. -/
def C33_full : Prop :=
  ∀ (eqs : List ArrEq) (order : List Nat) (edges : List ((Nat × Point) × (Nat × Point))),
    ScalarSystemOk eqs → ScalarRun eqs order edges → ∀ x y, (x, y) ∈ edges ↔ ScalarDepends eqs x y

/-- `for i in 0:0: y[i] = sum(x[0:1])` and `for i in 0:1: x[i] = ...`. -/
def C33_eqs : List ArrEq :=
  [⟨ofRanges [[⟨0, 1⟩]], [(1, .roto ⟨1, [.dim 0]⟩)], [(0, .generic 1 [.range ⟨0, 2⟩])]⟩,
   ⟨ofRanges [[⟨0, 2⟩]], [(0, .roto ⟨1, [.dim 0]⟩)], []⟩]

theorem scalar_identity (p : Point) (h : p.length = 1) :
    MapsTo (.roto ⟨1, [.dim 0]⟩) p p ∧
    ∃ t, (AccessFn.roto ⟨1, [.dim 0]⟩).mapPoint p = some t ∧ SetOk 1 t := by
  obtain ⟨x, rfl⟩ := List.length_eq_one_iff.1 h
  have e : (AccessFn.roto ⟨1, [.dim 0]⟩).mapPoint [x] = some (ofPoints [[x]]) := rfl
  have o := ofPoint_single (q := [x]) (by simp)
  exact ⟨⟨_, e, o.2⟩, _, e, o.1⟩

theorem C33_interval (a b : Int) (h : a < b) : SetOk 1 (ofRanges [[⟨a, b⟩]]) :=
  (ofRanges_spec (k := 1) (rs := [[⟨a, b⟩]]) (by simp [Ranked, Box.Valid, Range.Valid, h])).1

theorem C33_eqs_ok : ScalarSystemOk C33_eqs := by
  refine ⟨⟨fun _ => 1, ?_⟩, ?_, ?_⟩
  · intro e he a ha p hp
    simp only [C33_eqs, List.mem_cons, List.not_mem_nil, or_false] at he
    rcases he with rfl | rfl
    · have hl := has_length (C33_interval 0 1 (by decide)) hp
      simp only [List.cons_append, List.nil_append, List.mem_cons, List.not_mem_nil, or_false] at ha
      rcases ha with rfl | rfl
      · exact ⟨_, rfl, C33_interval 0 2 (by decide)⟩
      · exact (scalar_identity p hl).2
    · have hl := has_length (C33_interval 0 2 (by decide)) hp
      simp only [List.nil_append, List.mem_singleton] at ha
      subst ha
      exact (scalar_identity p hl).2
  · intro e he
    simp only [C33_eqs, List.mem_cons, List.not_mem_nil, or_false] at he
    rcases he with rfl | rfl <;> simp
  · intro e he p hp
    simp only [C33_eqs, List.mem_cons, List.not_mem_nil, or_false] at he
    rcases he with rfl | rfl
    · have hl := has_length (C33_interval 0 1 (by decide)) hp
      exact ⟨1, p, by simpa using (scalar_identity p hl).1⟩
    · have hl := has_length (C33_interval 0 2 (by decide)) hp
      exact ⟨0, p, by simpa using (scalar_identity p hl).1⟩

/-- The property fails for equations that read a range of elements: the elements are compared as a
whole with the element written by the other equation. -/
theorem C33_scalar_false : ¬ C33_full := by
  intro h
  obtain ⟨m, h1, h2⟩ : ∃ m, scalarWrites C33_eqs [0, 1] = some m ∧
      allScalarEdges C33_eqs m (scalarVertices C33_eqs) = some [] := by
    have e : (scalarWrites C33_eqs [0, 1]).bind
        (fun m => allScalarEdges C33_eqs m (scalarVertices C33_eqs)) = some [] := by
      decide +kernel
    rwa [Option.bind_eq_some_iff] at e
  have hd := h C33_eqs [0, 1] [] C33_eqs_ok ⟨.refl _, m, [], h1, h2, .refl _⟩ (0, [0]) (1, [1])
  refine absurd (hd.2 ⟨_, _, rfl, rfl, ?_, ?_, _, List.mem_singleton_self _, _,
    List.mem_singleton_self _, rfl, [1], ⟨_, rfl, ?_⟩, ?_⟩) (by simp)
  · rw [← mem_points]; decide
  · rw [← mem_points]; decide
  · rw [← mem_points]; decide
  · exact ⟨_, rfl, by rw [← mem_points]; decide⟩

/-- Every edge is a dependency, for all accesses. -/
theorem C33_sound (eqs : List ArrEq) (hok : ScalarSystemOk eqs) (order : List Nat)
    (edges : List ((Nat × Point) × (Nat × Point))) (h : ScalarRun eqs order edges)
    (x y : Nat × Point) (he : (x, y) ∈ edges) : ScalarDepends eqs x y := by
  obtain ⟨ei, ej, h1, h2, h3, h4, r, hr, w, hw, hrw, q, ⟨s, hs, hsq⟩, ⟨t, ht, htq⟩⟩ :=
    (scalarRun_edges hok h x y).1 he
  exact ⟨ei, ej, h1, h2, h3, h4, r, hr, w, hw, hrw, q, ⟨s, hs, (hsq q).2 rfl⟩,
    ⟨t, ht, (htq q).2 rfl⟩⟩

/-- The construction never fails, and the edges are the dependencies, provided every read access
gives a single element at every iteration point. Missing from `C33_full`: reads of ranges of
elements, for which it is false. -/
theorem C33_scalar_partial (eqs : List ArrEq) (hok : ScalarSystemOk eqs)
    (hrd : ∀ e ∈ eqs, ∀ r ∈ e.reads, ∀ p, Has e.it p → ∃ q, MapsTo r.2 p q) (order : List Nat)
    (ho : order.Perm (List.range eqs.length)) :
    (∃ edges, ScalarRun eqs order edges) ∧
    ∀ edges, ScalarRun eqs order edges → ∀ x y, (x, y) ∈ edges ↔ ScalarDepends eqs x y := by
  refine ⟨scalarRun_exists hok ho, fun edges h x y => ⟨C33_sound eqs hok order edges h x y, ?_⟩⟩
  rintro ⟨ei, ej, h1, h2, h3, h4, r, hr, w, hw, hrw, q, ⟨s, hs, hsq⟩, ⟨t, ht, htq⟩⟩
  rw [scalarRun_edges hok h]
  refine ⟨ei, ej, h1, h2, h3, h4, r, hr, w, hw, hrw, q, ?_, ?_⟩
  · obtain ⟨q', s', hs', hq'⟩ := hrd ei (List.mem_of_getElem? h1) r hr x.2 h3
    rw [hs] at hs'
    obtain rfl := Option.some.inj hs'
    obtain rfl := (hq' q).1 hsq
    exact ⟨s, hs, hq'⟩
  · obtain ⟨v, q', hw'⟩ := hok.oneElem ej (List.mem_of_getElem? h2) y.2 h4
    obtain ⟨-, t', ht', hq'⟩ := hw' w hw
    rw [ht] at ht'
    obtain rfl := Option.some.inj ht'
    obtain rfl := (hq' q).1 htq
    exact ⟨t, ht, hq'⟩

/-- Affine accesses satisfy the hypotheses on single accesses. -/
theorem C33_affine {n k : Nat} {f : AccessFn} (hf : ReadOk n k f) (p : Point) (hp : p.length = n) :
    ∃ q, MapsTo f p q := by
  obtain ⟨q, hq⟩ := vals_exists (n := n) (p := p)
    (fun e he => ⟨hf.noDiv e he, by rw [← hf.dims]; exact hf.ok.below e he⟩) hp.ge
  exact ⟨q, (mapsTo_iff_vals hf hp.ge).2 hq⟩

-- The system of C32: `x[0] = y[1]`, ..., `x[3] = x[0]`.
example : ((scalarWrites C32_sample [1, 0, 2]).bind
      (fun m => allScalarEdges C32_sample m (scalarVertices C32_sample))).map List.length = some 5 ∧
    ((scalarWrites C32_sample [1, 0, 2]).bind
      (fun m => allScalarEdges C32_sample m (scalarVertices C32_sample))).map
        (fun l => l.contains ((2, [3]), (0, [0])) && l.contains ((0, [2]), (1, [3]))) = some true := by
  decide +kernel

theorem C33_sample_ok : ScalarSystemOk C32_sample ∧
    ∀ e ∈ C32_sample, ∀ r ∈ e.reads, ∀ p, Has e.it p → ∃ q, MapsTo r.2 p q := by
  obtain ⟨rk, hrk⟩ := C32_sample_ok.acc
  have h1 : ∀ e ∈ C32_sample, ∀ a ∈ e.reads ++ e.writes, ∀ p, Has e.it p → ∃ q, MapsTo a.2 p q := by
    intro e he a ha p hp
    obtain ⟨n, hn, hs, hacc⟩ := hrk e he
    exact C33_affine (hacc a ha).1 p (has_length hs hp)
  refine ⟨⟨⟨rk, ?_⟩, ?_, ?_⟩, fun e he r hr => h1 e he r (by simp [hr])⟩
  · intro e he a ha p hp
    obtain ⟨n, hn, hs, hacc⟩ := hrk e he
    have hf := (hacc a ha).1
    have hl := (has_length hs hp).ge
    obtain ⟨q, hq⟩ := vals_exists (n := n) (p := p)
      (fun e he => ⟨hf.noDiv e he, by rw [← hf.dims]; exact hf.ok.below e he⟩) hl
    obtain ⟨t, t1, t2, -⟩ := mapPoint_vals hf.ok.affine hf.ok.nonempty
      (by rcases hf.kind with ⟨m, h, -⟩ | ⟨cs, h⟩ | ⟨rs, h⟩ <;> rw [h] <;> simp)
      (by rw [hf.dims]; exact hl) hq (fun e he => AExpr.noDiv_divOk (hf.noDiv e he) p)
    exact ⟨t, t1, by rw [← hf.results, ← affineMap_results_length hf.ok.affine]; exact t2⟩
  · intro e he
    simp only [C32_sample, List.mem_cons, List.not_mem_nil, or_false] at he
    rcases he with rfl | rfl | rfl <;> simp
  · intro e he p hp
    have hw : ∃ w, e.writes = [w] := by
      simp only [C32_sample, List.mem_cons, List.not_mem_nil, or_false] at he
      rcases he with rfl | rfl | rfl <;> exact ⟨_, rfl⟩
    obtain ⟨w, hw⟩ := hw
    obtain ⟨q, hq⟩ := h1 e he w (by simp [hw]) p hp
    exact ⟨w.1, q, by simpa [hw] using hq⟩

example : ∃ edges, ScalarRun C32_sample [2, 0, 1] edges :=
  (C33_scalar_partial _ C33_sample_ok.1 C33_sample_ok.2 _ (by decide)).1

end Marco.Props
