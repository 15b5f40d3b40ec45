import Verif.Lemmas.Metadata
import Verif.Lemmas.DerivativesMaterialization
import Verif.Lemmas.StartValues

/-! # C111: the program describes the variables of the model

The runtime library asks the program for the name, the rank, the printable elements, the derivative
and the values of the variable with a given number.

False: the numbers of the derivatives count the reserved variables, while all the other numbers do not;
and for a variable with three printable ranges the compiler reads operands that have been moved away.
Proved when no reserved variable stands before a derivative and the program is made; it is made when
the user asks for at most one piece of each variable.
-/

namespace Marco.Props
open Marco Marco.Metadata IndexSet RTree VF Spec Spec.Meta

/-- The claim. -/
def C111_full : Prop := ∀ (fuel : Nat) (match_ : Name → Name → Bool) (o : Orders) (f : Filter)
  (m : MModel), AnyOrder o → Proper match_ f m → program Int fuel match_ o f m ≠ .error .fuel →
  ∃ P, program Int fuel match_ o f m = .ok (some P) ∧ Describes m (Asked match_ f m) P

/-- No reserved variable stands before the derivative of a variable. -/
def C111_Front (m : MModel) : Prop := ∀ pre w post, m.vars = pre ++ w :: post →
  (∃ u ∈ pre, Reserved u.name) → ∀ v ∈ m.vars, ¬ Reserved v.name → m.der v.name ≠ some w.name

theorem C111_parts {V : Type} [Zero V] {fuel : Nat} {match_ : Name → Name → Bool} {o : Orders} {f : Filter}
    {m : MModel} {P : Program V} (h : program V fuel match_ o f m = .ok (some P)) :
    ∃ infos ds, printInfos fuel match_ f m = .ok infos ∧ derivatives m = some ds ∧
      (∀ e ∈ o.map (printableMap infos), e.2.length ≤ 2) ∧
      P = { getNumOfVariables := numOfVariables m
            getVariableName := switch (enumCases (names m)) []
            getVariableRank := switch (enumCases (ranks m)) 0
            isPrintable := isPrintable (o.set (printableVariables infos))
            getVariableNumOfPrintableRanges := numRanges (o.map (printableMap infos))
            getVariablePrintableRangeBegin := boundary (·.b) (o.map (printableMap infos))
            getVariablePrintableRangeEnd := boundary (·.e) (o.map (printableMap infos))
            getDerivative := switch (enumCases ds) (-1)
            getVariableValue := variableValue m } := by
  unfold program at h
  cases hi : printInfos fuel match_ f m with
  | error e => rw [hi] at h; cases h
  | ok infos =>
    cases hd : derivatives m with
    | none => rw [hi, hd] at h; cases h
    | some ds =>
      rw [hi, hd] at h
      by_cases ha : (o.map (printableMap infos)).all fun e => alive e.2.length
      · have hb : ∀ get, createBoundary get (o.map (printableMap infos)) =
            .ok (boundary get (o.map (printableMap infos))) := fun get => if_pos ha
        simp only [bind, Except.bind, hb] at h
        cases h
        refine ⟨infos, ds, rfl, rfl, fun e he => ?_, rfl⟩
        exact (alive_iff _).1 (List.all_eq_true.1 ha e he)
      · have hb : ∀ get, createBoundary get (o.map (printableMap infos)) = .error .ub :=
          fun get => if_neg ha
        simp only [bind, Except.bind, hb] at h
        cases h

/-- Missing with respect to `C111_full`: models with a reserved variable before a derivative, and
variables with more than two printable ranges (or whose set of printable elements is not made). -/
theorem C111_describes_partial {V : Type} [Zero V] {fuel : Nat} {match_ : Name → Name → Bool} {o : Orders}
    {f : Filter} {m : MModel} {P : Program V} (ho : AnyOrder o) (hm : Proper match_ f m)
    (hf : C111_Front m) (h : program V fuel match_ o f m = .ok (some P)) :
    Describes m (Asked match_ f m) P := by
  obtain ⟨infos, ds, hinf, hds, _, rfl⟩ := C111_parts h
  have hlen : numOfVariables m = ((visited m).length : Nat) := by
    unfold numOfVariables visited
    rw [List.countP_eq_length_filter]
  have hI := forall₂_get (EqAcc.mapM_ok hinf)
  obtain ⟨hDl, hD⟩ := PostOrder.mapM_getElem? _ _ _ hds
  have hnum : ∀ n v, Numbered m.vars n v ↔ (visited m)[n]? = some v := numbered_iff m.vars
  refine ⟨fun i => ?_, fun n v hv => ?_, fun i hi => ?_⟩
  · show 0 ≤ i ∧ i < numOfVariables m ↔ _
    rw [hlen]
    constructor
    · rintro ⟨h0, h1⟩
      obtain ⟨n, rfl⟩ := Int.eq_ofNat_of_zero_le h0
      have hn : n < (visited m).length := by omega
      exact ⟨n, _, rfl, (hnum n _).2 (List.getElem?_eq_getElem hn)⟩
    · rintro ⟨n, v, rfl, hv⟩
      have := (List.getElem?_eq_some_iff.1 ((hnum n v).1 hv)).1
      omega
  · obtain ⟨hmem, hres⟩ := numbered_mem hv
    have hget := (hnum n v).1 hv
    obtain ⟨i, hi, hpi⟩ := hI.2 n v hget
    obtain ⟨d, hd, hdn⟩ := hD n v hget
    -- what is known about the printable elements
    have hmem_set : ∀ n, n ∈ o.set (printableVariables infos) ↔ n ∈ printableVariables infos :=
      fun n => (ho.1 _).mem_iff
    have hmem_map : ∀ e, e ∈ o.map (printableMap infos) ↔ e ∈ printableMap infos :=
      fun e => (ho.2 _).mem_iff
    have hprint : isPrintable (o.set (printableVariables infos)) (n : Int) = true ↔
        n ∈ printableVariables infos := by
      constructor
      · intro hp
        by_contra hc
        rw [isPrintable, switch_dflt] at hp
        · cases hp
        · intro c hc' he
          obtain ⟨k, hk, rfl⟩ := List.mem_map.1 hc'
          have : k = n := by simpa using he
          exact hc ((hmem_set n).1 (this ▸ hk))
      · intro hp
        refine switch_eq ⟨((n : Int), true), List.mem_map.2 ⟨n, (hmem_set n).2 hp, rfl⟩, rfl⟩ ?_
        intro c hc _
        obtain ⟨k, _, rfl⟩ := List.mem_map.1 hc
        rfl
    have harr : v.shape ≠ [] → ∃ s, i = .array s ∧ SetOk v.shape.length s ∧ DisjL s.ranges ∧
        ∀ p, Has s p ↔ Asked match_ f m v p := by
      intro hs
      unfold printInfo at hpi
      rw [if_neg (by simpa using hs)] at hpi
      cases hpp : printableIndices fuel v.shape (filters match_ f m v) with
      | error e => rw [hpp] at hpi; cases hpi
      | ok s =>
        rw [hpp] at hpi
        cases hpi
        obtain ⟨h1, h2, h3⟩ := printableIndices_spec hs (filters_rank match_ f m v)
          (filters_bounds hm hmem) hpp
        exact ⟨s, rfl, h1, h2, fun p => by rw [h3, asked_iff]⟩
    -- the ranges of an array
    have hlist : v.shape ≠ [] → ∃ s, SetOk v.shape.length s ∧ DisjL s.ranges ∧
        (∀ p, Has s p ↔ Asked match_ f m v p) ∧
        ∀ (k : Int) (p : Point), p.length = v.shape.length →
          ((0 ≤ k ∧ k < numRanges (o.map (printableMap infos)) n ∧ ∀ (d : Nat) (x : Int), p[d]? = some x →
            boundary (·.b) (o.map (printableMap infos)) n k d ≤ x ∧
            x < boundary (·.e) (o.map (printableMap infos)) n k d) ↔
          ∃ (j : Nat) (b : Box), k = j ∧ s.compactRanges[j]? = some b ∧ InB p b) := by
      intro hs
      obtain ⟨s, rfl, h1, h2, h3⟩ := harr hs
      refine ⟨s, h1, h2, h3, fun k p hp => ?_⟩
      have hc := compactRanges_spec h1
      cases he : s.isEmpty with
      | false =>
        refine listed_iff (r := v.shape.length) ((hmem_map _).2 (mem_printableMap.2 ⟨s, hi, he, rfl⟩)) ?_ ?_
          (fun b hb => (hc.ranked b hb).2) k p hp
        · intro e hem hen
          obtain ⟨s', hs', _, hr⟩ := mem_printableMap.1 ((hmem_map e).1 hem)
          rw [hen, hi] at hs'
          cases hs'
          exact hr
        · intro (hnil : s.compactRanges = [])
          have := (AccessFn.setOk_isEmpty h1).2 fun p hp => by
            have := (hc.mem p).2 hp
            rw [hnil] at this
            simp [InL] at this
          rw [this] at he
          cases he
      | true =>
        have hno := (AccessFn.setOk_isEmpty h1).1 he
        constructor
        · rintro ⟨a, b, _⟩
          rw [show numRanges (o.map (printableMap infos)) n = 0 from ?_] at b
          · omega
          · refine switch_dflt fun c hc' hx => ?_
            obtain ⟨e, hem, rfl⟩ := List.mem_map.1 hc'
            obtain ⟨s', hs', he', _⟩ := mem_printableMap.1 ((hmem_map e).1 (List.mem_filter.1 hem).1)
            have : e.1 = n := by simpa using hx
            rw [this, hi] at hs'
            cases hs'
            rw [he] at he'
            cases he'
        · rintro ⟨j, b, _, hb, hp'⟩
          exact absurd ((hc.mem p).1 ⟨b, List.mem_of_getElem? hb, hp'⟩) (hno p)
    refine ⟨?_, ?_, ?_, ?_, ?_, ?_, ?_, ?_⟩
    · exact switch_enum (by rw [names, List.getElem?_map, hget]; rfl)
    · exact switch_enum (by rw [ranks, List.getElem?_map, hget]; rfl)
    · intro σ p rest hp
      refine switch_enum ?_
      rw [List.getElem?_map, hget]
      simp [getter, ← hp]
    · intro d' hd'
      unfold derivativeOf at hd
      rw [hd'] at hd
      obtain ⟨pre, w, post, hvars, hw, rfl⟩ := position_spec hd
      refine ⟨pre.length, w, ?_, hw, switch_enum hdn⟩
      have hwr : ¬ Reserved w.name := hw ▸ (hm.ders v hmem d' hd').1
      rw [hvars]
      refine numbered_front (fun u hu hr => ?_) hwr
      exact hf pre w post hvars ⟨u, hu, hr⟩ v hmem hres (by rw [hd', hw])
    · intro hd'
      unfold derivativeOf at hd
      rw [hd'] at hd
      cases hd
      exact switch_enum hdn
    · show isPrintable _ _ = true ↔ _
      rw [hprint, mem_printableVariables]
      by_cases hs : v.shape = []
      · unfold printInfo at hpi
        rw [if_pos (by simp [hs])] at hpi
        cases hpi
        rw [hi]
        simp only [Option.some.injEq, PrintInfo.scalar.injEq, reduceCtorEq, false_and, exists_false, or_false]
        rw [List.any_eq_true]
        constructor
        · rintro ⟨i, hi, hvis⟩
          refine ⟨[], (asked_iff _ _ _ _ _).2 ⟨⟨by simp [hs], by simp⟩, i, hi, hvis, ?_⟩⟩
          intro k r x _ hx
          simp at hx
        · rintro ⟨p, hp⟩
          obtain ⟨_, i, hi, hvis, _⟩ := (asked_iff _ _ _ _ _).1 hp
          exact ⟨i, hi, hvis⟩
      · obtain ⟨s, rfl, h1, _, h3⟩ := harr hs
        rw [hi]
        have := AccessFn.setOk_isEmpty h1
        constructor
        · rintro (h | ⟨s', h, he⟩)
          · cases h
          · cases h
            by_contra hc
            rw [this.2 fun p hp => hc ⟨p, (h3 p).1 hp⟩] at he
            cases he
        · rintro ⟨p, hp⟩
          refine .inr ⟨s, rfl, ?_⟩
          by_contra hc
          exact this.1 (by simpa using hc) p ((h3 p).2 hp)
    · intro hs k p hp hl
      obtain ⟨s, h1, h2, h3, h4⟩ := hlist hs
      obtain ⟨j, b, rfl, hb, hin⟩ := (h4 k p hp).1 hl
      exact (h3 p).1 ((compactRanges_spec h1).mem p |>.1 ⟨b, List.mem_of_getElem? hb, hin⟩)
    · intro hs p hp
      obtain ⟨s, h1, h2, h3, h4⟩ := hlist hs
      have hpl : p.length = v.shape.length := hp.1
      have hc := compactRanges_spec h1
      obtain ⟨b, hb, hin⟩ := (hc.mem p).2 ((h3 p).2 hp)
      obtain ⟨j, hj, rfl⟩ := List.mem_iff_getElem.1 hb
      refine ⟨j, (h4 j p hpl).2 ⟨j, _, rfl, List.getElem?_eq_getElem hj, hin⟩, fun k hk => ?_⟩
      obtain ⟨j', b', rfl, hb', hin'⟩ := (h4 k p hpl).1 hk
      obtain ⟨hj', rfl⟩ := List.getElem?_eq_some_iff.1 hb'
      have hdis := List.pairwise_iff_getElem.1 (hc.disj h2)
      rcases lt_trichotomy j j' with hlt | heq | hlt
      · exact absurd ⟨hin, hin'⟩ (hdis j j' hj hj' hlt p)
      · rw [heq]
      · exact absurd ⟨hin', hin⟩ (hdis j' j hj' hj hlt p)
  · have hi' : ¬ (0 ≤ i ∧ i < (visited m).length) := by rw [← hlen]; exact hi
    have hil : infos.length = (visited m).length := hI.1.symm
    have hnone : ∀ n : Nat, (n : Int) = i → infos[n]? = none := by
      intro n hn
      rw [List.getElem?_eq_none_iff, hil]
      omega
    refine ⟨?_, ?_, ?_, ?_, ?_, ?_⟩
    · exact switch_enum_dflt (by simpa [names] using hi')
    · exact switch_enum_dflt (by simpa [ranks] using hi')
    · refine switch_dflt fun c hc hx => ?_
      obtain ⟨k, hk, rfl⟩ := List.mem_map.1 hc
      have := mem_printableVariables.1 ((ho.1 _).mem_iff.1 hk)
      rw [hnone k hx] at this
      simp at this
    · refine switch_dflt fun c hc hx => ?_
      obtain ⟨e, he, rfl⟩ := List.mem_map.1 hc
      obtain ⟨s, hs, _⟩ := mem_printableMap.1 ((ho.2 _).mem_iff.1 (List.mem_filter.1 he).1)
      rw [hnone e.1 hx] at hs
      cases hs
    · exact switch_enum_dflt (by rw [hDl]; exact hi')
    · intro σ mem
      exact switch_enum_dflt (by simpa using hi')

theorem C111_split_single (b : Box) : ∀ ds : List Nat, splitDims ds [b] = [b]
  | [] => rfl
  | d :: ds => by
    rw [splitDims]
    have : ∀ n, splitLoop d n [] [b] = [b] := by
      intro n
      match n with
      | 0 => rfl
      | 1 => rfl
      | n + 2 => rfl
    rw [this]
    exact C111_split_single b ds

theorem C111_compact_single {s : IndexSet} (h : s.ranges.length ≤ 1) : s.compactRanges.length ≤ 2 := by
  unfold compactRanges
  match hr : s.ranges, h with
  | [], _ => simp [splitToMinGrid, sortBoxes, removeDuplicates, mergeRanges, mergeAll]
  | [b], _ =>
    simp [splitToMinGrid, C111_split_single, sortBoxes, removeDuplicates, dedupFrom, mergeRanges, mergeAll,
      mergeOnce, findMergeable]
  | _ :: _ :: _, h => simp at h

/-- When the user asks for at most one piece of each variable the program is made. -/
theorem C111_made {V : Type} [Zero V] {fuel : Nat} {match_ : Name → Name → Bool} {o : Orders}
    {f : Filter} {m : MModel} (ho : AnyOrder o) (hm : Proper match_ f m)
    (h1 : ∀ v ∈ m.vars, (f.vars v.name).length ≤ 1) :
    ∃ P, program V fuel match_ o f m = .ok (some P) := by
  have hfl : ∀ v ∈ m.vars, (filters match_ f m v).length ≤ 1 := by
    intro v hv
    unfold filters
    cases m.state v.name with
    | some s => simp [Filter.getVariableDerInfo]
    | none =>
      simp only [Filter.getVariableInfo]
      split
      · simp
      · rw [List.length_map]
        exact h1 v hv
  have hvis : ∀ v ∈ visited m, v ∈ m.vars := fun v hv => (List.mem_filter.1 hv).1
  have hset : ∀ v ∈ visited m, v.shape ≠ [] →
      ∃ s, printableIndices fuel v.shape (filters match_ f m v) = .ok s ∧ s.compactRanges.length ≤ 2 := by
    intro v hv hs
    have hlen : ((printable v.shape (filters match_ f m v)).map toBox).length ≤ 1 := by
      rw [List.length_map, printable, List.length_map]
      exact (List.length_filter_le _ _).trans (hfl v (hvis v hv))
    have hpw : ((printable v.shape (filters match_ f m v)).map toBox).Pairwise Apart := by
      generalize (printable v.shape (filters match_ f m v)).map toBox = l at hlen
      match l, hlen with
      | [], _ => exact .nil
      | [b], _ => simp
      | _ :: _ :: _, h => simp at h
    have hrk : ∀ b ∈ (printable v.shape (filters match_ f m v)).map toBox, Ranked v.shape.length b := by
      intro b hb
      simp only [List.mem_map, printable, List.mem_filter] at hb
      obtain ⟨_, ⟨i, ⟨hi, hvi⟩, rfl⟩, rfl⟩ := hb
      exact box_ranked hs (filters_rank match_ f m v i hi) (filters_bounds hm (hvis v hv) i hi hvi)
    obtain ⟨s, hs1, hs2, _⟩ := C07_apart_partial fuel hrk hpw
    refine ⟨s, by rw [printableIndices, insertBoxes_eq, hs1], C111_compact_single ?_⟩
    rw [hs2.length_eq]
    exact hlen
  obtain ⟨infos, hinf⟩ : ∃ infos, printInfos fuel match_ f m = .ok infos := by
    refine DerMat.mapM_exists fun v hv => ?_
    unfold printInfo
    by_cases hs : v.shape = []
    · rw [if_pos (by simp [hs])]
      exact ⟨_, rfl⟩
    · obtain ⟨s, h, _⟩ := hset v hv hs
      rw [if_neg (by simpa using hs), h]
      exact ⟨_, rfl⟩
  obtain ⟨ds, hds⟩ : ∃ ds, derivatives m = some ds := by
    refine StartVals.mapM_isSome fun v hv => ?_
    unfold derivativeOf
    cases hd : m.der v.name with
    | none => exact ⟨_, rfl⟩
    | some d =>
      obtain ⟨_, w, hw, rfl⟩ := hm.ders v (hvis v hv) d hd
      exact position_isSome hw
  have hall : (o.map (printableMap infos)).all (fun e => alive e.2.length) = true := by
    rw [List.all_eq_true]
    intro e he
    obtain ⟨s, hs, _, hr⟩ := mem_printableMap.1 ((ho.2 _).mem_iff.1 he)
    rw [alive_iff, hr]
    have hI := forall₂_get (EqAcc.mapM_ok hinf)
    have hl : e.1 < (visited m).length := hI.1 ▸ (List.getElem?_eq_some_iff.1 hs).1
    obtain ⟨i, hi, hpi⟩ := hI.2 e.1 _ (List.getElem?_eq_getElem hl)
    rw [hs] at hi
    cases hi
    unfold printInfo at hpi
    by_cases hsh : (visited m)[e.1].shape = []
    · rw [if_pos (by simp [hsh])] at hpi
      cases hpi
    · obtain ⟨s', h, hc⟩ := hset _ (List.getElem_mem hl) hsh
      rw [if_neg (by simpa using hsh), h] at hpi
      cases hpi
      exact hc
  have hb : ∀ get, createBoundary get (o.map (printableMap infos)) =
      .ok (boundary get (o.map (printableMap infos))) := fun get => if_pos hall
  unfold program
  rw [hinf, hds]
  simp only [bind, Except.bind, hb]
  exact ⟨_, rfl⟩

/-- Both together. Missing with respect to `C111_full`: see `C111_describes_partial`, and several pieces
of one variable. -/
theorem C111_single_partial {V : Type} [Zero V] {fuel : Nat} {match_ : Name → Name → Bool} {o : Orders}
    {f : Filter} {m : MModel} (ho : AnyOrder o) (hm : Proper match_ f m) (hf : C111_Front m)
    (h1 : ∀ v ∈ m.vars, (f.vars v.name).length ≤ 1) :
    ∃ P, program V fuel match_ o f m = .ok (some P) ∧ Describes m (Asked match_ f m) P := by
  obtain ⟨P, hP⟩ := C111_made (V := V) (fuel := fuel) ho hm h1
  exact ⟨P, hP, C111_describes_partial ho hm hf hP⟩

/-! ### Samples -/

namespace C111_Sample

/-- The tables are visited in the order of insertion. -/
def plain : Orders := ⟨id, id⟩

theorem plain_ok : AnyOrder plain := ⟨fun _ => .refl _, fun _ => .refl _⟩

/-- The tables are visited backwards. -/
def back : Orders := ⟨List.reverse, List.reverse⟩

theorem back_ok : AnyOrder back := ⟨fun l => l.reverse_perm, fun l => l.reverse_perm⟩

def noMatch : Name → Name → Bool := fun _ _ => false

/-- `x` with its derivative `y`, and a reserved variable in the middle. -/
def withHidden : MModel where
  vars := [⟨['x'], []⟩, ⟨['_', '_', 'a'], []⟩, ⟨['y'], []⟩]
  der n := if n = ['x'] then some ['y'] else none
  state n := if n = ['y'] then some ['x'] else none

theorem hidden_proper : Proper noMatch {} withHidden where
  names := by decide
  ders := by
    intro v hv d hd
    simp only [withHidden, Option.ite_none_right_eq_some, Option.some.injEq] at hd
    obtain ⟨_, rfl⟩ := hd
    exact ⟨by rintro ⟨r, h⟩; simp at h, ⟨['y'], []⟩, by simp [withHidden], rfl⟩
  sizes := by simp [withHidden]
  bounds := by
    intro v hv i hi _ k n r hn _
    simp only [withHidden, List.mem_cons, List.not_mem_nil, or_false] at hv
    rcases hv with rfl | rfl | rfl <;> simp at hn

/-- A vector `x` of five elements, after a scalar. -/
def vector : MModel where
  vars := [⟨['u'], []⟩, ⟨['x'], [5]⟩]
  der _ := none
  state _ := none

/-- `x[1],x[3],x[5]`. -/
def three : Filter where
  vars n := if n = ['x'] then [⟨['x'], [⟨1, 1⟩]⟩, ⟨['x'], [⟨3, 3⟩]⟩, ⟨['x'], [⟨5, 5⟩]⟩] else []
  enabled := true

/-- `x[1],x[3:4]`. -/
def two : Filter where
  vars n := if n = ['x'] then [⟨['x'], [⟨1, 1⟩]⟩, ⟨['x'], [⟨3, 4⟩]⟩] else []
  enabled := true

theorem vector_proper (f : Filter)
    (h : ∀ i ∈ f.getVariableInfo noMatch ['x'] 1, i.ranges = [⟨1, 1⟩] ∨ i.ranges = [⟨3, 3⟩] ∨
      i.ranges = [⟨5, 5⟩] ∨ i.ranges = [⟨3, 4⟩]) : Proper noMatch f vector where
  names := by decide
  ders := by intro v _ d hd; simp [vector] at hd
  sizes := by
    intro v hv n hn
    simp only [vector, List.mem_cons, List.not_mem_nil, or_false] at hv
    rcases hv with rfl | rfl <;> simp at hn
    omega
  bounds := by
    intro v hv i hi _ k n r hn hr
    simp only [vector, List.mem_cons, List.not_mem_nil, or_false] at hv
    rcases hv with rfl | rfl
    · simp at hn
    · match k with
      | 0 =>
        simp only [List.getElem?_cons_zero, Option.some.injEq] at hn
        subst hn
        rcases h i hi with h | h | h | h <;> rw [h] at hr <;> simp at hr <;> subst hr <;> simp
      | k + 1 => simp at hn

theorem three_proper : Proper noMatch three vector := vector_proper _ (by
  intro i hi
  have : i ∈ [(⟨true, [⟨1, 1⟩]⟩ : Info), ⟨true, [⟨3, 3⟩]⟩, ⟨true, [⟨5, 5⟩]⟩] := hi
  simp only [List.mem_cons, List.not_mem_nil, or_false] at this
  rcases this with rfl | rfl | rfl <;> simp)

theorem two_proper : Proper noMatch two vector := vector_proper _ (by
  intro i hi
  have : i ∈ [(⟨true, [⟨1, 1⟩]⟩ : Info), ⟨true, [⟨3, 4⟩]⟩] := hi
  simp only [List.mem_cons, List.not_mem_nil, or_false] at this
  rcases this with rfl | rfl <;> simp)

theorem vector_front : C111_Front vector := by
  intro pre w post _ _ v _ _ h
  simp [vector] at h

theorem hidden_program : ∃ P, program Int 10 noMatch plain {} withHidden = .ok (some P) ∧
    P.getDerivative 0 = 2 ∧ P.getNumOfVariables = 2 := ⟨_, rfl, rfl, rfl⟩

end C111_Sample

open C111_Sample in
/-- The derivative of the first variable is said to be the variable number 2, which does not exist. -/
theorem C111_reserved_wrong : ∃ P, program Int 10 noMatch plain {} withHidden = .ok (some P) ∧
    ¬ Describes withHidden (Asked noMatch {} withHidden) P := by
  obtain ⟨P, h1, h2, h3⟩ := hidden_program
  refine ⟨P, h1, fun h => ?_⟩
  have hx : Numbered withHidden.vars 0 ⟨['x'], []⟩ := .here (by rintro ⟨r, h⟩; simp at h)
  obtain ⟨j, w, hj, _, he⟩ := (h.answers 0 _ hx).derivative ['y'] rfl
  have hj2 : j = 2 := by
    have : ((0 : Nat) : Int) = 0 := rfl
    rw [this, h2] at he
    omega
  have := (h.count 2).2 ⟨2, w, rfl, hj2 ▸ hj⟩
  rw [h3] at this
  omega

open C111_Sample in
/-- Three ranges: the operands of the first cases are read after they have been moved. -/
theorem C111_three_ub : program Int 10 noMatch plain three vector = .error .ub := by
  have : (printInfos 10 noMatch three vector).toOption.map (fun l => (printableMap l).map fun e => e.2.length) =
      some [3] := by decide +kernel
  cases hi : printInfos 10 noMatch three vector with
  | error e => rw [hi] at this; cases this
  | ok infos =>
    rw [hi] at this
    simp only [Except.toOption, Option.map_some, Option.some.injEq] at this
    unfold program
    rw [hi]
    have hd : derivatives vector = some [-1, -1] := by decide
    rw [hd]
    have hb : ∀ get, createBoundary get (plain.map (printableMap infos)) = .error .ub := by
      intro get
      refine if_neg fun hall => ?_
      have hall' : (printableMap infos).all (fun e => alive e.2.length) = true := hall
      match hm : printableMap infos with
      | [] => rw [hm] at this; simp at this
      | e :: l =>
        rw [hm] at this hall'
        simp only [List.map_cons, List.cons.injEq] at this
        rw [List.all_cons, Bool.and_eq_true, this.1] at hall'
        exact absurd hall'.1 (by decide)
    simp only [bind, Except.bind, hb]

open C111_Sample in
theorem C111_full_false : ¬ C111_full := by
  intro h
  obtain ⟨P, hP, _⟩ := h 10 noMatch plain three vector plain_ok three_proper (by
    rw [C111_three_ub]; intro h; cases h)
  rw [C111_three_ub] at hP
  cases hP

namespace C111_Sample

-- `x[1],x[3:4]`: two ranges, in whatever order the tables are visited.
example : ((program Int 10 noMatch back two vector).toOption.bind id).map (fun P =>
    (P.getVariableName 1, [P.isPrintable 0, P.isPrintable 1],
      [P.getNumOfVariables, P.getVariableRank 1, P.getVariableNumOfPrintableRanges 1,
        P.getVariablePrintableRangeBegin 1 0 0, P.getVariablePrintableRangeEnd 1 0 0,
        P.getVariablePrintableRangeBegin 1 1 0, P.getVariablePrintableRangeEnd 1 1 0,
        P.getVariablePrintableRangeEnd 1 2 0])) =
    some (['x'], [false, true], [2, 1, 2, 0, 1, 2, 4, -1]) := by decide +kernel

-- The hypotheses of the theorems hold for it, and its program is made.
example : AnyOrder back ∧ Proper noMatch two vector ∧ C111_Front vector ∧
    ∃ P, program Int 10 noMatch back two vector = .ok (some P) := by
  refine ⟨back_ok, two_proper, vector_front, ?_⟩
  have : ((program Int 10 noMatch back two vector).toOption.bind id).isSome = true := by decide +kernel
  cases h : program Int 10 noMatch back two vector with
  | error e => rw [h] at this; cases this
  | ok P =>
    cases P with
    | none => rw [h] at this; cases this
    | some P => exact ⟨P, rfl⟩

-- Without filter everything is shown, and nothing is undefined.
example : ∃ P, program Int 0 noMatch back {} vector = .ok (some P) ∧
    Describes vector (Asked noMatch {} vector) P := by
  refine C111_single_partial back_ok ⟨by decide, two_proper.ders, two_proper.sizes, ?_⟩ vector_front
    (by intro v _; simp)
  intro v hv i hi _ k n r hn hr
  have hi' : i = ⟨true, List.replicate v.shape.length ⟨-1, -1⟩⟩ := by
    simpa [Filter.getVariableInfo, Filter.matchesRegex, kUnbounded] using hi
  subst hi'
  obtain ⟨_, rfl⟩ := List.getElem?_eq_some_iff.1 hr
  refine ⟨two_proper.sizes v hv n (List.mem_of_getElem? hn), ?_⟩
  simp

end C111_Sample

end Marco.Props
