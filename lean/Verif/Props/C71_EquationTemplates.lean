import Verif.Lemmas.EquationTemplates

/-!
# C71: from the equations of a section to equation instances
-/

namespace Marco.Props
open Marco Spec Split Templ
open scoped BigOperators

/-- The property in full: the instances stand for the scalar equations of the section, their ranges
are as `IndexSet` needs them, and they are between scalars if the sizes of the arrays are known. -/
def C71_full : Prop := ∀ (α : Type) (es : List (Eqn α)),
  sectionHas (fun l r => SameShape l r ∧ SizesFit l) es → sectionRanges stepNonzero es →
  sectionRanges SmallRange es →
  ∃ is, instances es = some is ∧ (is.map instanceScalars).sum = sectionScalars [] es ∧
    (∀ i ∈ is, RangesOk i) ∧
    (sectionHas (fun l r => Static l ∧ Static r) es → ∀ i ∈ is, ScalarSides i)

theorem mapM_spec {α β : Type} {f : α → Option β} {R : α → β → Prop} : ∀ {l : List α},
    (∀ a ∈ l, ∃ b, f a = some b ∧ R a b) → ∃ l', l.mapM f = some l' ∧ List.Forall₂ R l l'
  | [], _ => ⟨[], rfl, .nil⟩
  | a :: l, h => by
    obtain ⟨b, hb, hr⟩ := h a (by simp)
    obtain ⟨l', hl, hl'⟩ := mapM_spec (l := l) fun x hx => h x (by simp [hx])
    exact ⟨b :: l', by simp [List.mapM_cons, hb, hl], .cons hr hl'⟩

theorem forall₂_mem_right {α β : Type} {R : α → β → Prop} {l : List α} {l' : List β}
    (h : List.Forall₂ R l l') : ∀ b ∈ l', ∃ a ∈ l, R a b := by
  induction h with
  | nil => simp
  | cons h1 _ ih =>
    intro b hb
    rcases List.mem_cons.1 hb with rfl | hb
    · exact ⟨_, by simp, h1⟩
    · obtain ⟨a, ha, hr⟩ := ih b hb
      exact ⟨a, by simp [ha], hr⟩

theorem iterationSpace_spec {loops : List Loop} (h : ∀ l ∈ loops, LoopUp l) :
    ∃ rs, iterationSpace loops = some rs ∧ (loops = [] → rs = []) ∧
      (loops ≠ [] → ∀ p, p ∈ points rs ↔
        List.Forall₂ (fun v s => v ∈ s) p (loops.map loopValues)) ∧
      (∀ b ∈ rs, b.length = loops.length) ∧ rs.Pairwise Disj ∧
      ((∀ l ∈ loops, (loopValues l).Nonempty) →
        (loops ≠ [] → rs ≠ []) ∧ ∀ b ∈ rs, ∀ r ∈ b, r.b < r.e) := by
  by_cases h0 : loops = []
  · subst h0
    exact ⟨[], rfl, fun _ => rfl, fun h => absurd rfl h, by simp, .nil, fun _ =>
      ⟨fun h => absurd rfl h, by simp⟩⟩
  · obtain ⟨rss, h1, h2⟩ := mapM_spec fun l hl => loopRanges_spec (h l hl)
    have hne : rss ≠ [] := by
      rintro rfl
      exact h0 (List.length_eq_zero_iff.1 h2.length_eq)
    have hc : List.Forall₂ RangesOf rss (loops.map loopValues) := by
      rw [List.forall₂_map_right_iff]
      exact (h2.imp fun a b hab => hab.1).flip
    refine ⟨combinations rss, ?_, fun h => absurd h h0, fun _ p => ?_, fun b hb => ?_,
      combinations_disj hc, fun hv => ?_⟩
    · rw [iterationSpace, if_neg (by rwa [List.isEmpty_iff]), h1]
      rfl
    · rw [mem_points, combinations_cover hne hc]
    · rw [((mem_combinations hne).1 hb).length_eq, h2.length_eq]
    · have hall : ∀ rs ∈ rss, rs ≠ [] ∧ ∀ r ∈ rs, r.b < r.e := by
        intro rs hrs
        obtain ⟨l, hl, h3⟩ := forall₂_mem_right h2 rs hrs
        exact h3.2 (hv l hl)
      refine ⟨fun _ => ?_, fun b hb r hr => ?_⟩
      · have : ∃ b : Box, List.Forall₂ (fun r rs => r ∈ rs) b rss := by
          clear h1 h2 hne hc
          induction rss with
          | nil => exact ⟨[], .nil⟩
          | cons rs rss ih =>
            obtain ⟨b, hb⟩ := ih fun x hx => hall x (by simp [hx])
            obtain ⟨r, hr⟩ := List.exists_mem_of_ne_nil _ (hall rs (by simp)).1
            exact ⟨r :: b, .cons hr hb⟩
        obtain ⟨b, hb⟩ := this
        exact List.ne_nil_of_mem ((mem_combinations hne).2 hb)
      · obtain ⟨rs, hrs, h3⟩ := forall₂_mem_right ((mem_combinations hne).1 hb).flip r hr
        exact (hall rs hrs).2 r h3

/-- The instance created for an equation. -/
structure Created {α : Type} (e : List Loop × List (Val α) × List (Val α)) (i : Instance α) :
    Prop where
  scalars : instanceScalars i = foundScalars e
  lhs : i.lhs = e.2.1
  rhs : i.rhs = e.2.2
  ok : (∀ l ∈ e.1, (loopValues l).Nonempty) → RangesOk i

theorem create_spec {α : Type} {e : List Loop × List (Val α) × List (Val α)}
    (h : ∀ l ∈ e.1, LoopUp l) : ∃ i, create e = some i ∧ Created e i := by
  obtain ⟨rs, h1, h2, h3, h4, h5, h6⟩ := iterationSpace_spec h
  refine ⟨_, by rw [create, h1]; rfl, ⟨?_, rfl, rfl, fun hv => ⟨?_, h4, (h6 hv).2, h5⟩⟩⟩
  · by_cases h0 : e.1 = []
    · simp [instanceScalars, foundScalars, h0, overIndices]
    · rw [instanceScalars, if_neg (by simpa using h0), foundScalars,
        overIndices_points _ [] _ (points rs) (h3 h0)]
      simp
  · rw [List.length_eq_zero_iff]
    exact ⟨fun hr => by_contra fun h0 => (h6 hv).1 h0 hr, h2⟩

theorem sectionRanges_imp {α : Type} {P Q : ForRange → Prop} (h : ∀ r, P r → Q r) :
    (∀ e : Eqn α, eqnRanges P e → eqnRanges Q e) ∧
      ∀ es : List (Eqn α), sectionRanges P es → sectionRanges Q es := by
  have key : ∀ n, (∀ e : Eqn α, sizeOf e < n → eqnRanges P e → eqnRanges Q e) ∧
      ∀ es : List (Eqn α), sizeOf es < n → sectionRanges P es → sectionRanges Q es := by
    intro n
    induction n with
    | zero => exact ⟨fun _ h => absurd h (by omega), fun _ h => absurd h (by omega)⟩
    | succ n ih =>
      refine ⟨fun e he hp => ?_, fun es he hp => ?_⟩
      · cases e with
        | equality l r => trivial
        | loop i is body =>
          simp only [Eqn.loop.sizeOf_spec] at he
          exact ⟨h _ hp.1, fun j hj => h _ (hp.2.1 j hj), ih.2 body (by omega) hp.2.2⟩
      · cases es with
        | nil => trivial
        | cons e es =>
          simp only [List.cons.sizeOf_spec] at he
          exact ⟨ih.1 e (by omega) hp.1, ih.2 es (by omega) hp.2⟩
  exact ⟨fun e => (key (sizeOf e + 1)).1 e (by omega), fun es => (key (sizeOf es + 1)).2 es (by omega)⟩

theorem loopUp_attributes {r : ForRange} (h : Upwards r) : LoopUp (attributes r) := by
  cases r with
  | two b e => exact ⟨Int.one_pos, h⟩
  | three b s e => exact h

/-- What the passes give, if the loops go up; `Q` is a property of the loops. -/
theorem pipeline_spec {α : Type} {es : List (Eqn α)} {P : Val α → Val α → Prop} {Q : Loop → Prop}
    (h1 : sectionHas P es) (h2 : sectionRanges (fun r => Q (attributes r)) es)
    (hP : ∀ l r, P l r → SameShape l r)
    (hQ : ∀ l r, P l r → ∀ ds, l.shape = some ds → ∀ d ∈ ds, Q ⟨0, (d.size : Int) - 1, 1⟩)
    (hup : ∀ l, Q l → LoopUp l) :
    ∃ is, instances es = some is ∧ (is.map instanceScalars).sum = sectionScalars [] es ∧
      ((∀ l, Q l → (loopValues l).Nonempty) → ∀ i ∈ is, RangesOk i) ∧
      ((∀ l r, P l r → Static l ∧ Static r) → ∀ i ∈ is, ScalarSides i) := by
  obtain ⟨a1, a2, a3⟩ := splitAll_spec (lowerAll es) (lowerAll_has es h1)
    (lowerAll_loops (P := Q) es h2)
  obtain ⟨b1, b2, b3⟩ := explicitAll_spec hP hQ _ 0 a1 a2
  have hl := collect_loops [([], explicitAll 0 (splitAll (lowerAll es)))]
    (by simpa using b1)
  obtain ⟨is, c1, c2⟩ := mapM_spec fun e he => create_spec fun l hle => hup l (hl e he l hle)
  refine ⟨is, c1, ?_, fun hv i hi => ?_, fun hk i hi => ?_⟩
  · have hsum : (is.map instanceScalars).sum = ((collect
        [([], explicitAll 0 (splitAll (lowerAll es)))]).map foundScalars).sum := by
      clear c1 hl
      generalize collect [([], explicitAll 0 (splitAll (lowerAll es)))] = found at c2
      induction c2 with
      | nil => rfl
      | cons h _ ih => simp only [List.map_cons, List.sum_cons, ih, h.scalars]
    rw [hsum, collect_scalars]
    simp only [List.map_cons, List.map_nil, List.sum_cons, List.sum_nil, add_zero, frameScalars,
      overIndices]
    rw [b3 [] rfl, a3, lowerAll_scalars]
  · obtain ⟨e, he, hc⟩ := forall₂_mem_right c2 i hi
    exact hc.ok fun l hle => hv l (hl e he l hle)
  · obtain ⟨e, he, hc⟩ := forall₂_mem_right c2 i hi
    obtain ⟨l, r, h5, h6, h7, h8⟩ := collect_one [([], explicitAll 0 (splitAll (lowerAll es)))]
      (by simpa using b2 hk) e he
    exact ⟨l, r, by rw [hc.lhs, h5], by rw [hc.rhs, h6], h7, h8⟩

theorem sectionHas_and {α : Type} {P Q : Val α → Val α → Prop} : ∀ es : List (Eqn α),
    sectionHas P es → sectionHas Q es → sectionHas (fun l r => P l r ∧ Q l r) es := by
  have f2 : ∀ {a b : List (Val α)}, List.Forall₂ P a b → List.Forall₂ Q a b →
      List.Forall₂ (fun l r => P l r ∧ Q l r) a b := by
    intro a b h1 h2
    induction h1 with
    | nil => exact .nil
    | cons h _ ih => cases h2 with | cons h3 h4 => exact .cons ⟨h, h3⟩ (ih h4)
  have key : ∀ n, (∀ e : Eqn α, sizeOf e < n → eqnHas P e → eqnHas Q e →
        eqnHas (fun l r => P l r ∧ Q l r) e) ∧
      ∀ es : List (Eqn α), sizeOf es < n → sectionHas P es → sectionHas Q es →
        sectionHas (fun l r => P l r ∧ Q l r) es := by
    intro n
    induction n with
    | zero => exact ⟨fun _ h => absurd h (by omega), fun _ h => absurd h (by omega)⟩
    | succ n ih =>
      refine ⟨fun e he hp hq => ?_, fun es he hp hq => ?_⟩
      · cases e with
        | equality l r =>
          rw [eqnHas] at hp hq ⊢
          exact f2 hp hq
        | loop i is body =>
          simp only [Eqn.loop.sizeOf_spec] at he
          rw [eqnHas] at hp hq ⊢
          exact ih.2 body (by omega) hp hq
      · cases es with
        | nil => trivial
        | cons e es =>
          simp only [List.cons.sizeOf_spec] at he
          exact ⟨ih.1 e (by omega) hp.1 hq.1, ih.2 es (by omega) hp.2 hq.2⟩
  exact fun es => (key (sizeOf es + 1)).2 es (by omega)

/-- With steps that are positive, the instances stand for the scalar equations of the section, also
if some ranges have no values, and are between scalars if the sizes are known. -/
theorem C71_equations_partial {α : Type} (es : List (Eqn α))
    (h1 : sectionHas (fun l r => SameShape l r ∧ SizesFit l) es) (h2 : sectionRanges Upwards es) :
    ∃ is, instances es = some is ∧ (is.map instanceScalars).sum = sectionScalars [] es ∧
      (sectionHas (fun l r => Static l ∧ Static r) es → ∀ i ∈ is, ScalarSides i) := by
  have h2' := (sectionRanges_imp (α := α) fun r h => loopUp_attributes h).2 es h2
  have hfit : ∀ (l r : Val α), SameShape l r ∧ SizesFit l → ∀ ds, l.shape = some ds → ∀ d ∈ ds,
      LoopUp ⟨0, (d.size : Int) - 1, 1⟩ := fun l r h ds hds d hd =>
    ⟨Int.one_pos, by have := h.2 ds hds d hd; simp only; omega⟩
  obtain ⟨is, a, b, -, -⟩ := pipeline_spec h1 h2' (fun l r h => h.1) hfit fun l h => h
  refine ⟨is, a, b, fun hk => ?_⟩
  obtain ⟨is', a', -, -, d'⟩ := pipeline_spec (sectionHas_and es h1 hk) h2' (fun l r h => h.1.1)
    (fun l r h => hfit l r h.1) fun l h => h
  rw [a] at a'
  cases a'
  exact d' fun l r h => h.2

/-- If, moreover, the ranges and the arrays are not empty, the ranges of the instances are as
`IndexSet` needs them. -/
theorem C71_ranges_partial {α : Type} (es : List (Eqn α))
    (h1 : sectionHas (fun l r => SameShape l r ∧ SizesOk l) es)
    (h2 : sectionRanges (fun r => Upwards r ∧ NonemptyRange r) es) :
    ∃ is, instances es = some is ∧ (is.map instanceScalars).sum = sectionScalars [] es ∧
      ∀ i ∈ is, RangesOk i := by
  have h2' := (sectionRanges_imp (α := α) (P := fun r => Upwards r ∧ NonemptyRange r)
    (Q := fun r => LoopUp (attributes r) ∧ (loopValues (attributes r)).Nonempty)
    fun r h => ⟨loopUp_attributes h.1, by rw [loopValues_attributes]; exact h.2⟩).2 es h2
  obtain ⟨is, a, b, c, -⟩ := pipeline_spec (Q := fun l => LoopUp l ∧ (loopValues l).Nonempty) h1 h2'
    (fun l r h => h.1) (fun l r h ds hds d hd => by
      obtain ⟨h3, h4⟩ := h.2 ds hds d hd
      refine ⟨⟨Int.one_pos, by simp only; omega⟩, 0, ?_⟩
      rw [loopValues, forValues_upto, Finset.mem_Ico]
      omega) fun l h => h.1
  exact ⟨is, a, b, c fun l h => h.2⟩

/-- An equation between arrays whose sizes are known to differ, or whose ranks differ, gets no loops:
it is left for the verification of the types to reject. -/
theorem C71_mismatch {α : Type} (depth : Nat) (l r : Val α) (ds es : List Dim) (hl : l.shape = some ds)
    (hr : r.shape = some es) (h : ds.length ≠ es.length ∨ ∃ (i : Nat) (d e : Dim), ds[i]? = some d ∧
      es[i]? = some e ∧ d.known = true ∧ e.known = true ∧ d.size ≠ e.size) :
    explicit depth (.equation [l] [r]) = [.equation [l] [r]] := by
  simp only [explicit, explicitate, hl, hr]
  rw [if_neg]
  rintro ⟨h1, h2⟩
  rcases h with h | ⟨i, d, e, h3, h4, h5, h6, h7⟩
  · exact h h1
  · rw [List.all_eq_true] at h2
    have := h2 (d, e) (List.mem_of_getElem? (i := i) (by rw [List.getElem?_zip_eq_some]; exact ⟨h3, h4⟩))
    simp [compatible, h5, h6, h7] at this

example : explicit (α := Nat) 0 (.equation [⟨some [⟨2, true⟩], fun _ _ => 0⟩]
      [⟨some [⟨3, true⟩], fun _ _ => 1⟩]) =
    [.equation [⟨some [⟨2, true⟩], fun _ _ => 0⟩] [⟨some [⟨3, true⟩], fun _ _ => 1⟩]] :=
  C71_mismatch 0 _ _ _ _ rfl rfl (.inr ⟨0, _, _, rfl, rfl, rfl, rfl, by decide⟩)

/-- A binding equation stands for the equations between the elements. -/
theorem C71_binding {α : Type} (dims : List Nat) (l r : Val α)
    (hl : l.shape.map (List.map Dim.size) = if dims.isEmpty then none else some dims)
    (hs : SameShape l r) :
    instanceScalars (binding dims l r) = elementwise [] l r ∧
      ((∀ d ∈ dims, 0 < d) → RangesOk (binding dims l r)) ∧ ScalarSides (binding dims l r) := by
  cases dims with
  | nil =>
    have h1 : l.shape = none := by simpa using hl
    have h2 : r.shape = none := by
      unfold SameShape at hs; rw [h1] at hs; simpa using hs.symm
    refine ⟨by simp [instanceScalars, binding, sidesEquations], fun _ => ⟨by simp [binding],
      by simp [binding], by simp [binding], .nil⟩, l, r, by simp [binding, h1, h2]⟩
  | cons d ds =>
    obtain ⟨es, h1, h2⟩ : ∃ es, l.shape = some es ∧ es.map Dim.size = d :: ds := by
      cases h : l.shape with
      | none => rw [h] at hl; simp at hl
      | some es => rw [h] at hl; exact ⟨es, rfl, by simpa using hl⟩
    refine ⟨?_, fun hpos => ⟨by simp [binding], by simp [binding], ?_, by simp [binding]⟩,
      _, _, rfl, rfl, by simp [extract], by simp [extract]⟩
    · have hp : points (binding (d :: ds) l r).ranges = subscripts (d :: ds) := by
        ext p
        rw [mem_points, mem_subscripts]
        simp only [binding, List.isEmpty_cons, Bool.false_eq_true, if_false, List.mem_singleton,
          exists_eq_left]
        rw [InB, List.forall₂_map_left_iff, List.forall₂_map_right_iff]
        constructor
        · intro h
          exact (h.flip).imp fun a b hab => by
            rw [Finset.mem_Ico]; exact hab
        · intro h
          exact (h.flip).imp fun a b hab => by
            rw [Finset.mem_Ico] at hab; exact hab
      rw [instanceScalars, if_neg (by simp [binding]), hp, elementwise, h1]
      simp only [h2]
      refine Finset.sum_congr rfl fun p _ => ?_
      simp [binding, sidesEquations, elementwise, extract]
    · intro b hb r' hr'
      simp only [binding, List.isEmpty_cons, Bool.false_eq_true, if_false, List.mem_singleton] at hb
      subst hb
      obtain ⟨x, hx, rfl⟩ := List.mem_map.1 hr'
      have := hpos x hx
      simpa using this

/-! ### Witnesses -/

/-- A scalar that shows where it comes from. -/
def sc (name : Nat) : Val (Nat × Point × Point) := ⟨none, fun env s => (name, env, s)⟩

/-- An array that shows where its elements come from. -/
def ar (name : Nat) (ds : List Nat) : Val (Nat × Point × Point) :=
  ⟨some (ds.map fun d => ⟨d, true⟩), fun env s => (name, env, s)⟩

/-- `for i in 3:-1:1 loop x[i] = y[i]; end for` -/
def downwards : List (Eqn (Nat × Point × Point)) :=
  [.loop (.three 3 (-1) 1) [] [.equality [sc 0] [sc 1]]]

/-- `for i in 1:0 loop x[i] = y[i]; end for` -/
def noValues : List (Eqn (Nat × Point × Point)) :=
  [.loop (.two 1 0) [] [.equality [sc 0] [sc 1]]]

theorem sc_has : List.Forall₂ (fun l r => SameShape l r ∧ SizesFit l) [sc 0] [sc 1] :=
  .cons ⟨rfl, fun ds h => by simp [sc] at h⟩ .nil

/-- The equations of a loop that goes down are lost. -/
theorem C71_downwards_false : ∃ is, instances downwards = some is ∧
    (is.map instanceScalars).sum = 0 ∧ Multiset.card (sectionScalars [] downwards) = 3 := by
  refine ⟨[⟨1, [], [sc 0], [sc 1]⟩], ?_, by simp [instanceScalars, points], ?_⟩
  · simp [downwards, instances, lowerAll, lower, nest, attributes, splitAll, split, splitSides,
      explicitAll, explicit, explicitate, sc, createTemplates, collect, equationsOf, loopsOf,
      create, iterationSpace, loopRanges, stepRanges, maxInt, combinations]
  · have : forValues 3 (-1) 1 = {1, 2, 3} := by decide +kernel
    simp [downwards, sectionScalars, equationScalars, overIndices, indexRange, this,
      sidesEquations, elementwise, sc]

/-- A range without values becomes one that `IndexSet` does not admit. -/
theorem C71_empty_false : ∃ is, instances noValues = some is ∧ ∃ i ∈ is, ¬ RangesOk i := by
  refine ⟨[⟨1, [[⟨1, 1⟩]], [sc 0], [sc 1]⟩], ?_, _, List.mem_singleton.2 rfl, fun h => ?_⟩
  · simp [noValues, instances, lowerAll, lower, nest, attributes, splitAll, split, splitSides,
      explicitAll, explicit, explicitate, sc, createTemplates, collect, equationsOf, loopsOf,
      create, iterationSpace, loopRanges, maxInt, combinations]
  · have := h.valid [⟨1, 1⟩] (by simp) ⟨1, 1⟩ (by simp)
    simp at this

theorem C71_full_false : ¬ C71_full := by
  intro h
  obtain ⟨is, h1, h2, -, -⟩ := h _ downwards ⟨by simpa [eqnHas, sectionHas] using sc_has, trivial⟩
    ⟨⟨by simp [stepNonzero], by simp, trivial, trivial⟩, trivial⟩
    ⟨⟨by simp only [SmallRange, maxInt]; decide, by simp, trivial, trivial⟩, trivial⟩
  obtain ⟨is', h3, h4, h5⟩ := C71_downwards_false
  rw [h1] at h3
  cases h3
  rw [h2] at h4
  rw [h4] at h5
  simp at h5

/-- `for i in 1:3, j in 2:2:6 loop (a, b) = f(i, j); end for; x = y;` where `x`, `y` have 2 times 3
elements: the hypotheses hold. -/
def ordinary : List (Eqn (Nat × Point × Point)) :=
  [.loop (.two 1 3) [.three 2 2 6] [.equality [sc 0, sc 1] [sc 2, sc 3]],
   .equality [ar 4 [2, 3]] [ar 5 [2, 3]]]

theorem ar_sizes (n : Nat) {ds : List Nat} (h : ∀ d ∈ ds, 0 < d ∧ (d : Int) ≤ maxInt) :
    SizesOk (ar n ds) ∧ Static (ar n ds) := by
  refine ⟨fun es he d hd => ?_, fun es he d hd => ?_⟩ <;>
  · simp only [ar, Option.some.injEq] at he
    subst he
    obtain ⟨x, hx, rfl⟩ := List.mem_map.1 hd
    first
      | exact h x hx
      | rfl

example : sectionHas (fun l r => SameShape l r ∧ SizesOk l) ordinary ∧
    sectionRanges (fun r => Upwards r ∧ NonemptyRange r) ordinary ∧
    sectionHas (fun l r => Static l ∧ Static r) ordinary := by
  have hs : ∀ n, SizesOk (sc n) ∧ Static (sc n) := fun n =>
    ⟨fun ds h => by simp [sc] at h, fun ds h => by simp [sc] at h⟩
  have ha : ∀ n, SizesOk (ar n [2, 3]) ∧ Static (ar n [2, 3]) := fun n =>
    ar_sizes n (by simp [maxInt])
  refine ⟨?_, ?_, ?_⟩
  · simp [ordinary, sectionHas, eqnHas, hs, ha]
    exact ⟨⟨rfl, rfl⟩, rfl⟩
  · simp only [ordinary, sectionRanges, eqnRanges, Upwards, NonemptyRange, indexRange,
      maxInt]
    simp only [List.mem_singleton, forall_eq]
    decide +kernel
  · simp [ordinary, sectionHas, eqnHas, hs, ha]

/-- Three instances, with 6, 9 and 9 scalar equations. -/
example : (instances ordinary).map (List.map fun i => (i.dims, i.ranges)) =
    some [(2, [[⟨0, 2⟩, ⟨0, 3⟩]]),
      (2, [[⟨1, 4⟩, ⟨2, 3⟩], [⟨1, 4⟩, ⟨4, 5⟩], [⟨1, 4⟩, ⟨6, 7⟩]]),
      (2, [[⟨1, 4⟩, ⟨2, 3⟩], [⟨1, 4⟩, ⟨4, 5⟩], [⟨1, 4⟩, ⟨6, 7⟩]])] := by
  simp [ordinary, instances, lowerAll, lower, nest, attributes, splitAll, split, splitSides,
    explicitAll, explicit, explicitate, sc, ar, dimLoop, compatible, createTemplates, collect,
    equationsOf, loopsOf, create, iterationSpace, loopRanges, stepRanges, maxInt, combinations]

end Marco.Props
