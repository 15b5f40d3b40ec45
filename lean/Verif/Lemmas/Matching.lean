import Verif.Spec.Matching

/-!
# Lemmas about the application of augmenting paths
-/

namespace Marco
namespace Matching
open Spec Mat

/-- The incidence `x` of the edge `k` belongs to a forward flow. -/
def FM (p : List Flow) (k : Nat) (x : Point × Point) : Prop :=
  ∃ f ∈ p, f.source.isVar = false ∧ f.edge = k ∧ x ∈ f.delta

/-- The incidence `x` of the edge `k` belongs to a backward flow. -/
def BM (p : List Flow) (k : Nat) (x : Point × Point) : Prop :=
  ∃ f ∈ p, f.source.isVar = true ∧ f.edge = k ∧ x ∈ f.delta

theorem mem_eqsOf {m : Mat} {p : Point} : p ∈ m.eqsOf ↔ ∃ q, (p, q) ∈ m := by
  simp [eqsOf]

theorem mem_varsOf {m : Mat} {q : Point} : q ∈ m.varsOf ↔ ∃ p, (p, q) ∈ m := by
  simp [varsOf]

theorem mem_filterRows {m : Mat} {s : Finset Point} {p q : Point} :
    (p, q) ∈ m.filterRows s ↔ (p, q) ∈ m ∧ p ∈ s := by simp [filterRows]

theorem mem_filterColumns {m : Mat} {s : Finset Point} {p q : Point} :
    (p, q) ∈ m.filterColumns s ↔ (p, q) ∈ m ∧ q ∈ s := by simp [filterColumns]

theorem OneToOne.mono {m m' : Mat} (h : OneToOne m) (hs : m' ⊆ m) : OneToOne m' :=
  fun p q p' q' h1 h2 => h p q p' q' (hs h1) (hs h2)

theorem FM_nil {k : Nat} {x : Point × Point} : ¬ FM [] k x := by simp [FM]
theorem BM_nil {k : Nat} {x : Point × Point} : ¬ BM [] k x := by simp [BM]

theorem FM_cons {f : Flow} {p : List Flow} {k : Nat} {x : Point × Point} :
    FM (f :: p) k x ↔ (f.source.isVar = false ∧ f.edge = k ∧ x ∈ f.delta) ∨ FM p k x := by
  simp [FM]

theorem BM_cons {f : Flow} {p : List Flow} {k : Nat} {x : Point × Point} :
    BM (f :: p) k x ↔ (f.source.isVar = true ∧ f.edge = k ∧ x ∈ f.delta) ∨ BM p k x := by
  simp [BM]

/-- The edges after a list of flows. -/
theorem foldl_applyEdge : ∀ (p : List Flow) (edge : Nat → Edge) (k : Nat),
    (∀ x, ¬ (FM p k x ∧ BM p k x)) →
    (p.foldl applyEdge edge k).eq = (edge k).eq ∧ (p.foldl applyEdge edge k).var = (edge k).var ∧
    (p.foldl applyEdge edge k).inc = (edge k).inc ∧
    (∀ x, x ∈ (p.foldl applyEdge edge k).matched ↔ (x ∈ (edge k).matched ∧ ¬ BM p k x) ∨ FM p k x) ∧
    (∀ x, x ∈ (p.foldl applyEdge edge k).unmatched ↔
      (x ∈ (edge k).unmatched ∧ ¬ FM p k x) ∨ BM p k x) := by
  intro p
  induction p with
  | nil => intro edge k _; simp [FM, BM]
  | cons f p ih =>
    intro edge k hd
    have hd' : ∀ x, ¬ (FM p k x ∧ BM p k x) := fun x h =>
      hd x ⟨FM_cons.2 (Or.inr h.1), BM_cons.2 (Or.inr h.2)⟩
    obtain ⟨h1, h2, h3, h4, h5⟩ := ih (applyEdge edge f) k hd'
    simp only [List.foldl_cons]
    by_cases hk : k = f.edge
    · subst hk
      cases hv : f.source.isVar with
      | false =>
        have he : applyEdge edge f f.edge = (edge f.edge).addMatch f.delta := by
          simp [applyEdge, hv]
        rw [he] at h1 h2 h3 h4 h5
        refine ⟨h1, h2, h3, fun x => ?_, fun x => ?_⟩
        · have hdx := hd x
          rw [h4]
          simp only [FM_cons, BM_cons, hv, true_and, Bool.false_eq_true, false_and,
            false_or, Edge.addMatch, Finset.mem_union] at hdx ⊢
          tauto
        · have hdx := hd x
          rw [h5]
          simp only [FM_cons, BM_cons, hv, true_and, Bool.false_eq_true, false_and,
            false_or, Edge.addMatch, Finset.mem_sdiff] at hdx ⊢
          tauto
      | true =>
        have he : applyEdge edge f f.edge = (edge f.edge).removeMatch f.delta := by
          simp [applyEdge, hv]
        rw [he] at h1 h2 h3 h4 h5
        refine ⟨h1, h2, h3, fun x => ?_, fun x => ?_⟩
        · have hdx := hd x
          rw [h4]
          simp only [FM_cons, BM_cons, hv, true_and, Bool.true_eq_false, false_and,
            false_or, Edge.removeMatch, Finset.mem_sdiff] at hdx ⊢
          tauto
        · have hdx := hd x
          rw [h5]
          simp only [FM_cons, BM_cons, hv, true_and, Bool.true_eq_false, false_and,
            false_or, Edge.removeMatch, Finset.mem_union] at hdx ⊢
          tauto
    · have he : applyEdge edge f k = edge k := by simp [applyEdge, hk]
      have hk' : ¬ f.edge = k := fun h => hk h.symm
      rw [he] at h1 h2 h3 h4 h5
      refine ⟨h1, h2, h3, fun x => ?_, fun x => ?_⟩
      · rw [h4]; simp only [FM_cons, BM_cons, hk', false_and, and_false, false_or]
      · rw [h5]; simp only [FM_cons, BM_cons, hk', false_and, and_false, false_or]

/-- The flows start at the vertices of their edges. -/
def SourceOk (G : Graph) (p : List Flow) : Prop := ∀ f ∈ p,
  (f.source.isVar = false → f.source = .eq (G.edge f.edge).eq) ∧
  (f.source.isVar = true → f.source = .var (G.edge f.edge).var)

theorem mem_addedOf {G : Graph} : ∀ {p : List Flow} (_ : SourceOk G p),
    (∀ i x, x ∈ addedOf G p (.eq i) ↔ ∃ k q, (G.edge k).eq = i ∧ FM p k (x, q)) ∧
    (∀ j x, x ∈ addedOf G p (.var j) ↔ ∃ k q, (G.edge k).var = j ∧ FM p k (q, x)) := by
  intro p hp
  have key : ∀ v x, x ∈ addedOf G p v ↔ ∃ f ∈ p, f.source.isVar = false ∧
      ((v = f.source ∧ x ∈ f.delta.eqsOf) ∨ (v ≠ f.source ∧ v = f.target G ∧ x ∈ f.delta.varsOf)) := by
    intro v x
    unfold addedOf
    have : ∀ (l : List Flow) (s : Finset Point), x ∈ l.foldl (fun s f =>
        if f.source.isVar then s
        else
          if v = f.source then s ∪ f.delta.eqsOf
          else if v = f.target G then s ∪ f.delta.varsOf else s) s ↔ x ∈ s ∨ ∃ f ∈ l,
        f.source.isVar = false ∧ ((v = f.source ∧ x ∈ f.delta.eqsOf) ∨
          (v ≠ f.source ∧ v = f.target G ∧ x ∈ f.delta.varsOf)) := by
      intro l
      induction l with
      | nil => intro s; simp
      | cons f l ih =>
        intro s
        rw [List.foldl_cons, ih]
        simp only [List.mem_cons, exists_eq_or_imp, ← or_assoc]
        refine or_congr ?_ Iff.rfl
        split_ifs with h1 h2 h3
        · simp [h1]
        · rw [Bool.not_eq_true] at h1; simp only [Finset.mem_union]; tauto
        · rw [Bool.not_eq_true] at h1; simp only [Finset.mem_union]; tauto
        · rw [Bool.not_eq_true] at h1; tauto
    rw [this]
    simp
  constructor
  · intro i x
    rw [key]
    constructor
    · rintro ⟨f, hf, h1, h | h⟩
      · obtain ⟨q, hq⟩ := mem_eqsOf.1 h.2
        have := (hp f hf).1 h1
        rw [this] at h
        simp only [Vtx.eq.injEq] at h
        exact ⟨f.edge, q, h.1.symm, f, hf, h1, rfl, hq⟩
      · exfalso
        have := h.2.1
        simp [Flow.target, h1] at this
    · rintro ⟨k, q, h1, f, hf, h2, rfl, h3⟩
      have := (hp f hf).1 h2
      exact ⟨f, hf, h2, Or.inl ⟨by rw [this, h1], mem_eqsOf.2 ⟨q, h3⟩⟩⟩
  · intro j x
    rw [key]
    constructor
    · rintro ⟨f, hf, h1, h | h⟩
      · exfalso
        have := (hp f hf).1 h1
        rw [this] at h
        simp at h
      · obtain ⟨q, hq⟩ := mem_varsOf.1 h.2.2
        have h2 := h.2.1
        simp only [Flow.target, h1, Bool.false_eq_true, if_false, Vtx.var.injEq] at h2
        exact ⟨f.edge, q, h2.symm, f, hf, h1, rfl, hq⟩
    · rintro ⟨k, q, h1, f, hf, h2, rfl, h3⟩
      have := (hp f hf).1 h2
      refine ⟨f, hf, h2, Or.inr ⟨by rw [this]; simp, ?_, mem_varsOf.2 ⟨q, h3⟩⟩⟩
      simp [Flow.target, h2, h1]

theorem mem_removedOf {G : Graph} : ∀ {p : List Flow} (_ : SourceOk G p),
    (∀ i x, x ∈ removedOf G p (.eq i) ↔ ∃ k q, (G.edge k).eq = i ∧ BM p k (x, q)) ∧
    (∀ j x, x ∈ removedOf G p (.var j) ↔ ∃ k q, (G.edge k).var = j ∧ BM p k (q, x)) := by
  intro p hp
  have key : ∀ v x, x ∈ removedOf G p v ↔ ∃ f ∈ p, f.source.isVar = true ∧
      ((v = f.source ∧ x ∈ f.delta.varsOf) ∨ (v ≠ f.source ∧ v = f.target G ∧ x ∈ f.delta.eqsOf)) := by
    intro v x
    unfold removedOf
    have : ∀ (l : List Flow) (s : Finset Point), x ∈ l.foldl (fun s f =>
        if f.source.isVar then
          if v = f.source then s ∪ f.delta.varsOf
          else if v = f.target G then s ∪ f.delta.eqsOf else s
        else s) s ↔ x ∈ s ∨ ∃ f ∈ l,
        f.source.isVar = true ∧ ((v = f.source ∧ x ∈ f.delta.varsOf) ∨
          (v ≠ f.source ∧ v = f.target G ∧ x ∈ f.delta.eqsOf)) := by
      intro l
      induction l with
      | nil => intro s; simp
      | cons f l ih =>
        intro s
        rw [List.foldl_cons, ih]
        simp only [List.mem_cons, exists_eq_or_imp, ← or_assoc]
        refine or_congr ?_ Iff.rfl
        split_ifs with h1 h2 h3
        · simp only [Finset.mem_union]; tauto
        · simp only [Finset.mem_union]; tauto
        · tauto
        · simp [h1]
    rw [this]
    simp
  constructor
  · intro i x
    rw [key]
    constructor
    · rintro ⟨f, hf, h1, h | h⟩
      · exfalso
        have := (hp f hf).2 h1
        rw [this] at h
        simp at h
      · obtain ⟨q, hq⟩ := mem_eqsOf.1 h.2.2
        have h2 := h.2.1
        simp only [Flow.target, h1, if_true, Vtx.eq.injEq] at h2
        exact ⟨f.edge, q, h2.symm, f, hf, h1, rfl, hq⟩
    · rintro ⟨k, q, h1, f, hf, h2, rfl, h3⟩
      have := (hp f hf).2 h2
      refine ⟨f, hf, h2, Or.inr ⟨by rw [this]; simp, ?_, mem_eqsOf.2 ⟨q, h3⟩⟩⟩
      simp [Flow.target, h2, h1]
  · intro j x
    rw [key]
    constructor
    · rintro ⟨f, hf, h1, h | h⟩
      · obtain ⟨q, hq⟩ := mem_varsOf.1 h.2
        have := (hp f hf).2 h1
        rw [this] at h
        simp only [Vtx.var.injEq] at h
        exact ⟨f.edge, q, h.1.symm, f, hf, h1, rfl, hq⟩
      · exfalso
        have := h.2.1
        simp [Flow.target, h1] at this
    · rintro ⟨k, q, h1, f, hf, h2, rfl, h3⟩
      have := (hp f hf).2 h2
      exact ⟨f, hf, h2, Or.inl ⟨by rw [this, h1], mem_varsOf.2 ⟨q, h3⟩⟩⟩

/-- What is used of an alternating path: from the indices `P` of the equation `i` to the indices `Q`
of the variable `j`. -/
structure Facts (G : Graph) (i : Nat) (P : Finset Point) (j : Nat) (Q : Finset Point)
    (p : List Flow) : Prop where
  src : SourceOk G p
  fwd : ∀ f ∈ p, f.source.isVar = false → f.delta ⊆ (G.edge f.edge).unmatched ∧ OneToOne f.delta
  bwd : ∀ f ∈ p, f.source.isVar = true → f.delta ⊆ (G.edge f.edge).matched ∧ OneToOne f.delta
  start : ∀ x ∈ P, ∃ k q, (G.edge k).eq = i ∧ FM p k (x, q)
  finish : ∀ x ∈ Q, ∃ k q, (G.edge k).var = j ∧ FM p k (q, x)
  free : Q ⊆ (G.node (.var j)).unmatched
  rowF : ∀ k x q, FM p k (x, q) → ((G.edge k).eq = i ∧ x ∈ P) ∨
    ∃ k' q', (G.edge k').eq = (G.edge k).eq ∧ BM p k' (x, q')
  rowB : ∀ k x q, BM p k (x, q) → ∃ k' q', (G.edge k').eq = (G.edge k).eq ∧ FM p k' (x, q')
  colF : ∀ k x q, FM p k (x, q) → ((G.edge k).var = j ∧ q ∈ Q) ∨
    ∃ k' x', (G.edge k').var = (G.edge k).var ∧ BM p k' (x', q)
  colB : ∀ k x q, BM p k (x, q) → ∃ k' x', (G.edge k').var = (G.edge k).var ∧ FM p k' (x', q)
  card : Q.card = P.card

theorem card_oneToOne {m : Mat} (h : OneToOne m) : m.eqsOf.card = m.varsOf.card := by
  rw [eqsOf, varsOf, Finset.card_image_of_injOn, Finset.card_image_of_injOn]
  · rintro ⟨p, q⟩ hx ⟨p', q'⟩ hy hxy
    have := (h p q p' q' hx hy).2 hxy
    exact Prod.ext this hxy
  · rintro ⟨p, q⟩ hx ⟨p', q'⟩ hy hxy
    have := (h p q p' q' hx hy).1 hxy
    exact Prod.ext hxy this

theorem aug_facts {G : Graph} {i : Nat} {P : Finset Point} {p : List Flow} (h : Aug G i P p) :
    ∃ j Q, Facts G i P j Q p := by
  induction h with
  | @last i k P d h1 h2 h3 h4 h5 =>
    subst h1 h4
    have hF : ∀ k' x, FM [⟨.eq (G.edge k).eq, k, d⟩] k' x ↔ k = k' ∧ x ∈ d := by
      intro k' x; simp [FM, Vtx.isVar]
    have hB : ∀ k' x, ¬ BM [⟨.eq (G.edge k).eq, k, d⟩] k' x := by
      intro k' x; simp [BM, Vtx.isVar]
    refine ⟨(G.edge k).var, d.varsOf, ⟨?_, ?_, ?_, ?_, ?_, h5, ?_, ?_, ?_, ?_, (card_oneToOne h3).symm⟩⟩
    · intro f hf
      rw [List.mem_singleton] at hf; subst hf
      exact ⟨fun _ => rfl, by simp [Vtx.isVar]⟩
    · intro f hf _
      rw [List.mem_singleton] at hf; subst hf
      exact ⟨h2, h3⟩
    · intro f hf h
      rw [List.mem_singleton] at hf; subst hf
      simp [Vtx.isVar] at h
    · intro x hx
      obtain ⟨q, hq⟩ := mem_eqsOf.1 hx
      exact ⟨k, q, rfl, (hF _ _).2 ⟨rfl, hq⟩⟩
    · intro x hx
      obtain ⟨q, hq⟩ := mem_varsOf.1 hx
      exact ⟨k, q, rfl, (hF _ _).2 ⟨rfl, hq⟩⟩
    · intro k' x q hx
      obtain ⟨rfl, hy⟩ := (hF _ _).1 hx
      exact Or.inl ⟨rfl, mem_eqsOf.2 ⟨q, hy⟩⟩
    · intro k' x q hx; exact absurd hx (hB _ _)
    · intro k' x q hx
      obtain ⟨rfl, hy⟩ := (hF _ _).1 hx
      exact Or.inl ⟨rfl, mem_varsOf.2 ⟨x, hy⟩⟩
    · intro k' x q hx; exact absurd hx (hB _ _)
  | @step i k k' P d b rest h1 h2 h3 h4 h5 h6 h7 h8 _ ih =>
    subst h1 h4
    obtain ⟨j, Q, hF⟩ := ih
    have hFM : ∀ k1 x, FM (⟨.eq (G.edge k).eq, k, d⟩ :: ⟨.var (G.edge k).var, k', b⟩ :: rest) k1 x ↔
        (k = k1 ∧ x ∈ d) ∨ FM rest k1 x := by
      intro k1 x; simp [FM_cons, Vtx.isVar]
    have hBM : ∀ k1 x, BM (⟨.eq (G.edge k).eq, k, d⟩ :: ⟨.var (G.edge k).var, k', b⟩ :: rest) k1 x ↔
        (k' = k1 ∧ x ∈ b) ∨ BM rest k1 x := by
      intro k1 x; simp [BM_cons, Vtx.isVar]
    refine ⟨j, Q, ⟨?_, ?_, ?_, ?_, ?_, hF.free, ?_, ?_, ?_, ?_, ?_⟩⟩
    · intro f hf
      rcases List.mem_cons.1 hf with rfl | hf
      · exact ⟨fun _ => rfl, by simp [Vtx.isVar]⟩
      · rcases List.mem_cons.1 hf with rfl | hf
        · exact ⟨by simp [Vtx.isVar], fun _ => by simp [h5]⟩
        · exact hF.src f hf
    · intro f hf h
      rcases List.mem_cons.1 hf with rfl | hf
      · exact ⟨h2, h3⟩
      · rcases List.mem_cons.1 hf with rfl | hf
        · simp [Vtx.isVar] at h
        · exact hF.fwd f hf h
    · intro f hf h
      rcases List.mem_cons.1 hf with rfl | hf
      · simp [Vtx.isVar] at h
      · rcases List.mem_cons.1 hf with rfl | hf
        · exact ⟨h6, h7⟩
        · exact hF.bwd f hf h
    · intro x hx
      obtain ⟨q, hq⟩ := mem_eqsOf.1 hx
      exact ⟨k, q, rfl, (hFM _ _).2 (Or.inl ⟨rfl, hq⟩)⟩
    · intro x hx
      obtain ⟨k1, q, e1, e2⟩ := hF.finish x hx
      exact ⟨k1, q, e1, (hFM _ _).2 (Or.inr e2)⟩
    · intro k1 x q hx
      rcases (hFM _ _).1 hx with ⟨rfl, hy⟩ | hx
      · exact Or.inl ⟨rfl, mem_eqsOf.2 ⟨q, hy⟩⟩
      · right
        rcases hF.rowF k1 x q hx with ⟨e1, e2⟩ | ⟨k2, q2, e1, e2⟩
        · obtain ⟨q', hq'⟩ := mem_eqsOf.1 e2
          exact ⟨k', q', e1.symm, (hBM _ _).2 (Or.inl ⟨rfl, hq'⟩)⟩
        · exact ⟨k2, q2, e1, (hBM _ _).2 (Or.inr e2)⟩
    · intro k1 x q hx
      rcases (hBM _ _).1 hx with ⟨rfl, hy⟩ | hx
      · obtain ⟨k2, q2, e1, e2⟩ := hF.start x (mem_eqsOf.2 ⟨q, hy⟩)
        exact ⟨k2, q2, e1, (hFM _ _).2 (Or.inr e2)⟩
      · obtain ⟨k2, q2, e1, e2⟩ := hF.rowB k1 x q hx
        exact ⟨k2, q2, e1, (hFM _ _).2 (Or.inr e2)⟩
    · intro k1 x q hx
      rcases (hFM _ _).1 hx with ⟨rfl, hy⟩ | hx
      · right
        have : q ∈ b.varsOf := by rw [h8]; exact mem_varsOf.2 ⟨x, hy⟩
        obtain ⟨x', hx'⟩ := mem_varsOf.1 this
        exact ⟨k', x', h5, (hBM _ _).2 (Or.inl ⟨rfl, hx'⟩)⟩
      · rcases hF.colF k1 x q hx with h | ⟨k2, q2, e1, e2⟩
        · exact Or.inl h
        · exact Or.inr ⟨k2, q2, e1, (hBM _ _).2 (Or.inr e2)⟩
    · intro k1 x q hx
      rcases (hBM _ _).1 hx with ⟨rfl, hy⟩ | hx
      · have : q ∈ d.varsOf := by rw [← h8]; exact mem_varsOf.2 ⟨x, hy⟩
        obtain ⟨x', hx'⟩ := mem_varsOf.1 this
        exact ⟨k, x', h5.symm, (hFM _ _).2 (Or.inl ⟨rfl, hx'⟩)⟩
      · obtain ⟨k2, q2, e1, e2⟩ := hF.colB k1 x q hx
        exact ⟨k2, q2, e1, (hFM _ _).2 (Or.inr e2)⟩
    · rw [hF.card, (card_oneToOne h7), h8, (card_oneToOne h3)]

theorem aug_card_delta {G : Graph} {i : Nat} {P : Finset Point} {p : List Flow}
    (h : Aug G i P p) : ∀ f ∈ p, f.delta.card = P.card := by
  have ce : ∀ {m : Mat}, OneToOne m → m.card = m.eqsOf.card := by
    intro m hm
    rw [eqsOf, Finset.card_image_of_injOn]
    rintro ⟨p, q⟩ hx ⟨p', q'⟩ hy hxy
    exact Prod.ext hxy ((hm p q p' q' hx hy).1 hxy)
  induction h with
  | last h1 h2 h3 h4 h5 =>
    intro f hf
    rw [List.mem_singleton] at hf
    subst hf
    rw [← h4]
    exact ce h3
  | step h1 h2 h3 h4 h5 h6 h7 h8 _ ih =>
    have hb := card_oneToOne h7
    rw [h8, ← card_oneToOne h3, h4] at hb
    intro f hf
    rcases List.mem_cons.1 hf with rfl | hf
    · rw [← h4]; exact ce h3
    · rcases List.mem_cons.1 hf with rfl | hf
      · rw [← hb]; exact ce h7
      · rw [ih f hf, hb]

/-- A simple path uses every scalar equation and every scalar variable in one forward incidence. -/
theorem forward_row {G : Graph} {p : List Flow} (hs : (forward p).Pairwise (FDisj G))
    (ho : ∀ f ∈ p, f.source.isVar = false → OneToOne f.delta) {k k' : Nat} {x q q' : Point}
    (h1 : FM p k (x, q)) (h2 : FM p k' (x, q')) (he : (G.edge k).eq = (G.edge k').eq) :
    k = k' ∧ q = q' := by
  obtain ⟨f, hf, hv, rfl, hx⟩ := h1
  obtain ⟨f', hf', hv', rfl, hx'⟩ := h2
  have m1 : f ∈ forward p := by simp [forward, hf, hv]
  have m2 : f' ∈ forward p := by simp [forward, hf', hv']
  by_cases hff : f = f'
  · subst hff
    exact ⟨rfl, (ho f hf hv x q x q' hx hx').1 rfl⟩
  · have : Std.Symm (FDisj G) :=
      ⟨fun a b h => ⟨fun e => (h.1 e.symm).symm, fun e => (h.2 e.symm).symm⟩⟩
    have hd := (hs.forall m1 m2 hff).1 he
    exact absurd (mem_eqsOf.2 ⟨q', hx'⟩) (Finset.disjoint_left.1 hd (mem_eqsOf.2 ⟨q, hx⟩))

theorem forward_col {G : Graph} {p : List Flow} (hs : (forward p).Pairwise (FDisj G))
    (ho : ∀ f ∈ p, f.source.isVar = false → OneToOne f.delta) {k k' : Nat} {x x' q : Point}
    (h1 : FM p k (x, q)) (h2 : FM p k' (x', q)) (he : (G.edge k).var = (G.edge k').var) :
    k = k' ∧ x = x' := by
  obtain ⟨f, hf, hv, rfl, hx⟩ := h1
  obtain ⟨f', hf', hv', rfl, hx'⟩ := h2
  have m1 : f ∈ forward p := by simp [forward, hf, hv]
  have m2 : f' ∈ forward p := by simp [forward, hf', hv']
  by_cases hff : f = f'
  · subst hff
    exact ⟨rfl, (ho f hf hv x q x' q hx hx').2 rfl⟩
  · have : Std.Symm (FDisj G) :=
      ⟨fun a b h => ⟨fun e => (h.1 e.symm).symm, fun e => (h.2 e.symm).symm⟩⟩
    have hd := (hs.forall m1 m2 hff).2 he
    exact absurd (mem_varsOf.2 ⟨x', hx'⟩) (Finset.disjoint_left.1 hd (mem_varsOf.2 ⟨x, hx⟩))

/-- The state after the application of a path. -/
structure After (G : Graph) (i : Nat) (P : Finset Point) (j : Nat) (Q : Finset Point)
    (p : List Flow) (G' : Graph) : Prop where
  ne : G'.ne = G.ne
  nv : G'.nv = G.nv
  nd : G'.nd = G.nd
  eq : ∀ k, (G'.edge k).eq = (G.edge k).eq
  var : ∀ k, (G'.edge k).var = (G.edge k).var
  inc : ∀ k, (G'.edge k).inc = (G.edge k).inc
  idx : ∀ v, (G'.node v).idx = (G.node v).idx
  mat : ∀ k x, x ∈ (G'.edge k).matched ↔ (x ∈ (G.edge k).matched ∧ ¬ BM p k x) ∨ FM p k x
  unm : ∀ k x, x ∈ (G'.edge k).unmatched ↔ (x ∈ (G.edge k).unmatched ∧ ¬ FM p k x) ∨ BM p k x
  eqM : ∀ i' x, x ∈ (G'.node (.eq i')).matched ↔ x ∈ (G.node (.eq i')).matched ∨ (i' = i ∧ x ∈ P)
  varM : ∀ j' x, x ∈ (G'.node (.var j')).matched ↔ x ∈ (G.node (.var j')).matched ∨ (j' = j ∧ x ∈ Q)
  eqU : ∀ i' x, x ∈ (G'.node (.eq i')).unmatched ↔
    x ∈ (G.node (.eq i')).unmatched ∧ ¬ (i' = i ∧ x ∈ P)
  varU : ∀ j' x, x ∈ (G'.node (.var j')).unmatched ↔
    x ∈ (G.node (.var j')).unmatched ∧ ¬ (j' = j ∧ x ∈ Q)

theorem after_applyPath {G : Graph} (hG : Valid G) {i : Nat} {P : Finset Point} {j : Nat}
    {Q : Finset Point} {p : List Flow} (hp : Facts G i P j Q p) :
    After G i P j Q p (applyPath G p) := by
  have hFB : ∀ k x, ¬ (FM p k x ∧ BM p k x) := by
    rintro k x ⟨⟨f, hf, hv, rfl, hx⟩, ⟨f', hf', hv', he, hx'⟩⟩
    have h1 := (hp.fwd f hf hv).1 hx
    have h2 := (hp.bwd f' hf' hv').1 hx'
    rw [he] at h2
    rw [hG.unm, Finset.mem_sdiff] at h1
    exact h1.2 h2
  have hBm : ∀ k x, BM p k x → x ∈ (G.edge k).matched := by
    rintro k x ⟨f', hf', hv', rfl, hx'⟩
    exact (hp.bwd f' hf' hv').1 hx'
  have hFu : ∀ k x, FM p k x → x ∈ (G.edge k).unmatched := by
    rintro k x ⟨f', hf', hv', rfl, hx'⟩
    exact (hp.fwd f' hf' hv').1 hx'
  have hFi : ∀ k x, FM p k x → x ∈ (G.edge k).inc := by
    intro k x h
    have := hFu k x h
    rw [hG.unm, Finset.mem_sdiff] at this
    exact this.1
  have hE := fun k => foldl_applyEdge p G.edge k (hFB k)
  obtain ⟨ra, rb⟩ := mem_removedOf hp.src
  obtain ⟨aa, ab⟩ := mem_addedOf hp.src
  refine ⟨rfl, rfl, rfl, fun k => (hE k).1, fun k => (hE k).2.1, fun k => (hE k).2.2.1,
    fun v => rfl, fun k => (hE k).2.2.2.1, fun k => (hE k).2.2.2.2, ?_, ?_, ?_, ?_⟩
  · intro i' x
    simp only [applyPath, Node.addMatch, Node.removeMatch, Finset.mem_union, Finset.mem_sdiff, ra, aa]
    constructor
    · rintro (h | ⟨k, q, h1, h2⟩)
      · exact Or.inl h.1
      · rcases hp.rowF k x q h2 with ⟨h3, h4⟩ | ⟨k', q', h3, h4⟩
        · exact Or.inr ⟨h1.symm.trans h3, h4⟩
        · exact Or.inl ((hG.eqs i' x).2 ⟨k', q', h3.trans h1, hBm _ _ h4⟩)
    · rintro (h | ⟨rfl, h⟩)
      · by_cases hr : ∃ k q, (G.edge k).eq = i' ∧ BM p k (x, q)
        · right
          obtain ⟨k, q, h1, h2⟩ := hr
          obtain ⟨k', q', h3, h4⟩ := hp.rowB k x q h2
          exact ⟨k', q', h3.trans h1, h4⟩
        · exact Or.inl ⟨h, hr⟩
      · exact Or.inr (hp.start x h)
  · intro j' x
    simp only [applyPath, Node.addMatch, Node.removeMatch, Finset.mem_union, Finset.mem_sdiff, rb, ab]
    constructor
    · rintro (h | ⟨k, q, h1, h2⟩)
      · exact Or.inl h.1
      · rcases hp.colF k q x h2 with ⟨h3, h4⟩ | ⟨k', q', h3, h4⟩
        · exact Or.inr ⟨h1.symm.trans h3, h4⟩
        · exact Or.inl ((hG.vars j' x).2 ⟨k', q', h3.trans h1, hBm _ _ h4⟩)
    · rintro (h | ⟨rfl, h⟩)
      · by_cases hr : ∃ k q, (G.edge k).var = j' ∧ BM p k (q, x)
        · right
          obtain ⟨k, q, h1, h2⟩ := hr
          obtain ⟨k', q', h3, h4⟩ := hp.colB k q x h2
          exact ⟨k', q', h3.trans h1, h4⟩
        · exact Or.inl ⟨h, hr⟩
      · exact Or.inr (hp.finish x h)
  · intro i' x
    simp only [applyPath, Node.addMatch, Node.removeMatch, Finset.mem_union, Finset.mem_sdiff, ra, aa]
    constructor
    · rintro ⟨h | ⟨k, q, h1, h2⟩, h3⟩
      · refine ⟨h, ?_⟩
        rintro ⟨rfl, hP⟩
        exact h3 (hp.start x hP)
      · obtain ⟨k', q', h4, h5⟩ := hp.rowB k x q h2
        exact absurd ⟨k', q', h4.trans h1, h5⟩ h3
    · rintro ⟨h1, h2⟩
      refine ⟨Or.inl h1, ?_⟩
      rintro ⟨k, q, h3, h4⟩
      rcases hp.rowF k x q h4 with ⟨h5, h6⟩ | ⟨k', q', h5, h6⟩
      · exact h2 ⟨h3.symm.trans h5, h6⟩
      · rw [hG.part, Finset.mem_sdiff] at h1
        exact h1.2 ((hG.eqs i' x).2 ⟨k', q', h5.trans h3, hBm _ _ h6⟩)
  · intro j' x
    simp only [applyPath, Node.addMatch, Node.removeMatch, Finset.mem_union, Finset.mem_sdiff, rb, ab]
    constructor
    · rintro ⟨h | ⟨k, q, h1, h2⟩, h3⟩
      · refine ⟨h, ?_⟩
        rintro ⟨rfl, hP⟩
        exact h3 (hp.finish x hP)
      · obtain ⟨k', q', h4, h5⟩ := hp.colB k q x h2
        exact absurd ⟨k', q', h4.trans h1, h5⟩ h3
    · rintro ⟨h1, h2⟩
      refine ⟨Or.inl h1, ?_⟩
      rintro ⟨k, q, h3, h4⟩
      rcases hp.colF k q x h4 with ⟨h5, h6⟩ | ⟨k', q', h5, h6⟩
      · exact h2 ⟨h3.symm.trans h5, h6⟩
      · rw [hG.part, Finset.mem_sdiff] at h1
        exact h1.2 ((hG.vars j' x).2 ⟨k', q', h5.trans h3, hBm _ _ h6⟩)

theorem valid_applyPath {G : Graph} (hG : Valid G) {i : Nat} {P : Finset Point} {j : Nat}
    {Q : Finset Point} {p : List Flow} (hp : Facts G i P j Q p)
    (hP : P ⊆ (G.node (.eq i)).unmatched) (hs : (forward p).Pairwise (FDisj G)) :
    Valid (applyPath G p) := by
  have A := after_applyPath hG hp
  generalize applyPath G p = G' at A
  have hBm : ∀ k x, BM p k x → x ∈ (G.edge k).matched := by
    rintro k x ⟨f', hf', hv', rfl, hx'⟩
    exact (hp.bwd f' hf' hv').1 hx'
  have hFu : ∀ k x, FM p k x → x ∈ (G.edge k).inc ∧ x ∉ (G.edge k).matched := by
    rintro k x ⟨f', hf', hv', rfl, hx'⟩
    have := (hp.fwd f' hf' hv').1 hx'
    rwa [hG.unm, Finset.mem_sdiff] at this
  have ho : ∀ f ∈ p, f.source.isVar = false → OneToOne f.delta := fun f hf hv => (hp.fwd f hf hv).2
  have cross : ∀ k k' x q q', FM p k (x, q) → (x, q') ∈ (G.edge k').matched →
      ¬ BM p k' (x, q') → (G.edge k).eq = (G.edge k').eq → False := by
    intro k k' x q q' h1 h2 h3 h4
    rcases hp.rowF k x q h1 with ⟨h5, h6⟩ | ⟨k2, q2, h5, h6⟩
    · have h7 := hP h6
      rw [hG.part, Finset.mem_sdiff] at h7
      exact h7.2 ((hG.eqs i x).2 ⟨k', q', h4.symm.trans h5, h2⟩)
    · obtain ⟨e1, e2⟩ := hG.row k2 k' x q2 q' (hBm _ _ h6) h2 (h5.trans h4)
      subst e1 e2
      exact h3 h6
  have crossV : ∀ k k' x x' q, FM p k (x, q) → (x', q) ∈ (G.edge k').matched →
      ¬ BM p k' (x', q) → (G.edge k).var = (G.edge k').var → False := by
    intro k k' x x' q h1 h2 h3 h4
    rcases hp.colF k x q h1 with ⟨h5, h6⟩ | ⟨k2, q2, h5, h6⟩
    · have h7 := hp.free h6
      rw [hG.part, Finset.mem_sdiff] at h7
      exact h7.2 ((hG.vars j q).2 ⟨k', x', h4.symm.trans h5, h2⟩)
    · obtain ⟨e1, e2⟩ := hG.col k2 k' q2 x' q (hBm _ _ h6) h2 (h5.trans h4)
      subst e1 e2
      exact h3 h6
  constructor
  · constructor
    · intro k hk; rw [A.eq, A.ne]; rw [A.nd] at hk; exact hG.eqLt k hk
    · intro k hk; rw [A.var, A.nv]; rw [A.nd] at hk; exact hG.varLt k hk
    · intro k x q h
      rw [A.inc] at h
      rw [A.nd, A.eq, A.var, A.idx, A.idx]
      exact hG.inc k x q h
  · intro k x hx
    rw [A.inc]
    rcases (A.mat k x).1 hx with h | h
    · exact hG.sub k h.1
    · exact (hFu k x h).1
  · intro k
    ext x
    have h1 := hBm k x
    have h2 := hFu k x
    have h3 := @hG.sub k x
    rw [A.unm, Finset.mem_sdiff, A.inc, A.mat, hG.unm, Finset.mem_sdiff]
    have : ¬ (FM p k x ∧ BM p k x) := fun h => (h2 h.1).2 (h1 h.2)
    tauto
  · intro k k' x q q' h1 h2 he
    rw [A.eq, A.eq] at he
    rcases (A.mat k _).1 h1 with h1 | h1 <;> rcases (A.mat k' _).1 h2 with h2 | h2
    · exact hG.row k k' x q q' h1.1 h2.1 he
    · exact (cross k' k x q' q h2 h1.1 h1.2 he.symm).elim
    · exact (cross k k' x q q' h1 h2.1 h2.2 he).elim
    · exact forward_row hs ho h1 h2 he
  · intro k k' x x' q h1 h2 he
    rw [A.var, A.var] at he
    rcases (A.mat k _).1 h1 with h1 | h1 <;> rcases (A.mat k' _).1 h2 with h2 | h2
    · exact hG.col k k' x x' q h1.1 h2.1 he
    · exact (crossV k' k x' x q h2 h1.1 h1.2 he.symm).elim
    · exact (crossV k k' x x' q h1 h2.1 h2.2 he).elim
    · exact forward_col hs ho h1 h2 he
  · intro i' x
    rw [A.eqM]
    simp only [A.eq, A.mat]
    constructor
    · rintro (h | ⟨rfl, h⟩)
      · obtain ⟨k, q, h1, h2⟩ := (hG.eqs i' x).1 h
        by_cases hb : BM p k (x, q)
        · obtain ⟨k', q', h3, h4⟩ := hp.rowB k x q hb
          exact ⟨k', q', h3.trans h1, Or.inr h4⟩
        · exact ⟨k, q, h1, Or.inl ⟨h2, hb⟩⟩
      · obtain ⟨k, q, h1, h2⟩ := hp.start x h
        exact ⟨k, q, h1, Or.inr h2⟩
    · rintro ⟨k, q, h1, h | h⟩
      · exact Or.inl ((hG.eqs i' x).2 ⟨k, q, h1, h.1⟩)
      · rcases hp.rowF k x q h with ⟨h5, h6⟩ | ⟨k2, q2, h5, h6⟩
        · exact Or.inr ⟨h1.symm.trans h5, h6⟩
        · exact Or.inl ((hG.eqs i' x).2 ⟨k2, q2, h5.trans h1, hBm _ _ h6⟩)
  · intro j' x
    rw [A.varM]
    simp only [A.var, A.mat]
    constructor
    · rintro (h | ⟨rfl, h⟩)
      · obtain ⟨k, q, h1, h2⟩ := (hG.vars j' x).1 h
        by_cases hb : BM p k (q, x)
        · obtain ⟨k', q', h3, h4⟩ := hp.colB k q x hb
          exact ⟨k', q', h3.trans h1, Or.inr h4⟩
        · exact ⟨k, q, h1, Or.inl ⟨h2, hb⟩⟩
      · obtain ⟨k, q, h1, h2⟩ := hp.finish x h
        exact ⟨k, q, h1, Or.inr h2⟩
    · rintro ⟨k, q, h1, h | h⟩
      · exact Or.inl ((hG.vars j' x).2 ⟨k, q, h1, h.1⟩)
      · rcases hp.colF k q x h with ⟨h5, h6⟩ | ⟨k2, q2, h5, h6⟩
        · exact Or.inr ⟨h1.symm.trans h5, h6⟩
        · exact Or.inl ((hG.vars j' x).2 ⟨k2, q2, h5.trans h1, hBm _ _ h6⟩)
  · intro v
    ext x
    rw [Finset.mem_sdiff, A.idx]
    cases v with
    | eq i' =>
      rw [A.eqU, A.eqM, hG.part, Finset.mem_sdiff]
      tauto
    | var j' =>
      rw [A.varU, A.varM, hG.part, Finset.mem_sdiff]
      tauto

theorem fresh_valid {G : Graph} (h : Fresh G) : Valid G := by
  refine ⟨h.toGraphOk, ?_, ?_, ?_, ?_, ?_, ?_, ?_⟩
  · intro k; rw [(h.edge k).1]; simp
  · intro k; rw [(h.edge k).1, (h.edge k).2]; simp
  · intro k k' p q q' h1; rw [(h.edge k).1] at h1; simp at h1
  · intro k k' p q q' h1; rw [(h.edge k).1] at h1; simp at h1
  · intro i p
    rw [(h.node _).1]
    simp [fun k => (h.edge k).1]
  · intro i p
    rw [(h.node _).1]
    simp [fun k => (h.edge k).1]
  · intro v; rw [(h.node v).1, (h.node v).2]; simp

theorem sum_range_add (n i : Nat) (f g : Nat → Nat) (c : Nat)
    (h : ∀ k < n, g k = f k + if k = i then c else 0) (hi : i < n ∨ c = 0) :
    ((List.range n).map g).sum = ((List.range n).map f).sum + c := by
  induction n with
  | zero => rcases hi with h | h <;> simp_all
  | succ n ih =>
    rw [List.range_succ, List.map_append, List.map_append, List.sum_append, List.sum_append]
    have h1 := h n (Nat.lt_succ_self n)
    simp only [List.map_cons, List.map_nil, List.sum_cons, List.sum_nil, Nat.add_zero]
    by_cases hn : n = i
    · have : ((List.range n).map g).sum = ((List.range n).map f).sum := by
        congr 1
        apply List.map_congr_left
        intro k hk
        rw [List.mem_range] at hk
        rw [h k (by omega), if_neg (by omega)]
        simp
      rw [if_pos hn] at h1
      omega
    · have := ih (fun k hk => h k (by omega)) (by omega)
      rw [if_neg hn] at h1
      omega

theorem After.counts {G G' : Graph} {i j : Nat} {P Q : Finset Point} {p : List Flow}
    (hG : Valid G) (hp : Facts G i P j Q p) (hP : P ⊆ (G.node (.eq i)).unmatched)
    (A : After G i P j Q p G') :
    matchedEqs G' = matchedEqs G + P.card ∧ matchedVars G' = matchedVars G + P.card := by
  have hFi : ∀ k x, FM p k x → x ∈ (G.edge k).inc := by
    rintro k x ⟨f', hf', hv', rfl, hx'⟩
    have := (hp.fwd f' hf' hv').1 hx'
    rw [hG.unm, Finset.mem_sdiff] at this
    exact this.1
  constructor
  · rw [matchedEqs, matchedEqs, A.ne]
    apply sum_range_add _ i
    · intro k _
      have : (G'.node (.eq k)).matched = (G.node (.eq k)).matched ∪ (if k = i then P else ∅) := by
        ext x
        rw [A.eqM, Finset.mem_union]
        split_ifs with h <;> simp [h]
      rw [this, Finset.card_union_of_disjoint]
      · split_ifs <;> rfl
      · rw [Finset.disjoint_left]
        intro x h1 h2
        split_ifs at h2 with h
        · subst h
          have := hP h2
          rw [hG.part, Finset.mem_sdiff] at this
          exact this.2 h1
        · simp at h2
    · rcases P.eq_empty_or_nonempty with rfl | ⟨x, hx⟩
      · exact Or.inr rfl
      · left
        obtain ⟨k, q, h1, h2⟩ := hp.start x hx
        rw [← h1]
        exact hG.eqLt k (hG.inc k _ _ (hFi _ _ h2)).1
  · rw [matchedVars, matchedVars, A.nv, ← hp.card]
    apply sum_range_add _ j
    · intro k _
      have : (G'.node (.var k)).matched = (G.node (.var k)).matched ∪ (if k = j then Q else ∅) := by
        ext x
        rw [A.varM, Finset.mem_union]
        split_ifs with h <;> simp [h]
      rw [this, Finset.card_union_of_disjoint]
      · split_ifs <;> rfl
      · rw [Finset.disjoint_left]
        intro x h1 h2
        split_ifs at h2 with h
        · subst h
          have := hp.free h2
          rw [hG.part, Finset.mem_sdiff] at this
          exact this.2 h1
        · simp at h2
    · rcases Q.eq_empty_or_nonempty with rfl | ⟨x, hx⟩
      · exact Or.inr rfl
      · left
        obtain ⟨k, q, h1, h2⟩ := hp.finish x hx
        rw [← h1]
        exact hG.varLt k (hG.inc k _ _ (hFi _ _ h2)).1

end Matching
end Marco
