import Verif.Props.C25_Apply

/-!
# C24: setting and unsetting incidences is pointwise
-/

namespace Marco
namespace Props
open Marco.Spec Marco.IndexSet Marco.AccessFn

/-- The matrices obtained by a history of operations on a new matrix, inside of its spaces. -/
inductive Reach (S : Simplifier) (ne nv : Nat) (eqs vars : IndexSet) : MCIM → Prop
  | new : Reach S ne nv eqs vars (MCIM.new eqs vars)
  | apply {M M' : MCIM} {f : AccessFn} : Reach S ne nv eqs vars M → FnSimple ne nv f →
      M.apply S eqs f = some M' → Reach S ne nv eqs vars M'
  | set {M M' : MCIM} {e v : Point} : Reach S ne nv eqs vars M → Has eqs e → Has vars v →
      M.set S e v = some M' → Reach S ne nv eqs vars M'
  | unset {M M' : MCIM} {e v : Point} : Reach S ne nv eqs vars M → Has eqs e → Has vars v →
      M.unset S e v = some M' → Reach S ne nv eqs vars M'

/-- The full statement for `set`. -/
def C24_set_full : Prop := ∀ (S : Simplifier) (ne nv : Nat) (eqs vars : IndexSet) (M M' : MCIM)
    (e v : Point), 0 < ne → 0 < nv → SetOk ne eqs → SetOk nv vars →
    Reach S ne nv eqs vars M → Has eqs e → Has vars v →
    M.set S e v = some M' → ∀ e' v', Has eqs e' → Has vars v' →
      (Inc M' e' v' ↔ Inc M e' v' ∨ (e' = e ∧ v' = v))

/-- The full statement for `unset`. -/
def C24_unset_full : Prop := ∀ (S : Simplifier) (ne nv : Nat) (eqs vars : IndexSet) (M M' : MCIM)
    (e v : Point), 0 < ne → 0 < nv → SetOk ne eqs → SetOk nv vars →
    Reach S ne nv eqs vars M → Has eqs e → Has vars v →
    M.unset S e v = some M' → ∀ e' v', Has eqs e' → Has vars v' →
      (Inc M' e' v' ↔ Inc M e' v' ∧ ¬ (e' = e ∧ v' = v))

/-- Equations [0, 4), variables [0, 4). -/
def four : IndexSet := IndexSet.ofRanges [[⟨0, 4⟩]]

theorem has_four (x : Int) (h : 0 ≤ x) (h' : x < 4) : Has four [x] :=
  ((interval_ok 0 4 (by decide)).2 [x]).2 ⟨x, rfl, h, h'⟩

/-- MCIMGroupGeneric.cpp:57-62: with the access `i ↦ i + 1` applied, `set(0, 3)` finds the key 2 by
inverting the access on the variable 3; the incidence (0, 3) is not set. -/
theorem C24_set_false : ¬ C24_set_full := by
  intro h
  have hs : ((MCIM.new four four).apply idSimp four (.roto shiftMap)).bind
      (fun M => (M.set idSimp [0] [3]).bind fun M' => M'.get [0] [3]) = some false := by
    decide +kernel
  simp only [Option.bind_eq_some_iff] at hs
  obtain ⟨M, h1, M', h2, h3⟩ := hs
  have := (h idSimp 1 1 four four M M' [0] [3] (by decide) (by decide)
    (interval_ok 0 4 (by decide)).1 (interval_ok 0 4 (by decide)).1
    (.apply .new shift_simple h1) (has_four 0 (by decide) (by decide))
    (has_four 3 (by decide) (by decide)) h2 [0] [3] (has_four 0 (by decide) (by decide))
    (has_four 3 (by decide) (by decide))).2 (Or.inr ⟨rfl, rfl⟩)
  rw [Inc, h3] at this
  cases this

/-- The access `i ↦ 2`. -/
def constTwo : AccessFn := .affConst ⟨1, [.const 2]⟩

theorem constTwo_simple : FnSimple 1 1 constTwo := .const (cs := [2]) (by decide) rfl (by decide)

/-- MCIM.cpp:452-458: with the access `i ↦ 2` applied, `unset(0, 3)` drops the group, since it has
nothing to unset; the incidence (1, 2) is lost. -/
theorem C24_unset_false : ¬ C24_unset_full := by
  intro h
  have hs : ((MCIM.new four four).apply idSimp four constTwo).bind
      (fun M => (M.get [1] [2]).bind fun b => (M.unset idSimp [0] [3]).bind fun M' =>
        (M'.get [1] [2]).map fun b' => (b, b')) = some (true, false) := by
    decide +kernel
  simp only [Option.bind_eq_some_iff, Option.map_eq_some_iff, Prod.mk.injEq] at hs
  obtain ⟨M, h1, b, hb, M', h2, b', h3, rfl, rfl⟩ := hs
  have := (h idSimp 1 1 four four M M' [0] [3] (by decide) (by decide)
    (interval_ok 0 4 (by decide)).1 (interval_ok 0 4 (by decide)).1
    (.apply .new constTwo_simple h1) (has_four 0 (by decide) (by decide))
    (has_four 3 (by decide) (by decide)) h2 [1] [2] (has_four 1 (by decide) (by decide))
    (has_four 2 (by decide) (by decide))).2 ⟨hb, by decide⟩
  rw [Inc, h3] at this
  cases this

/-! ### What holds -/

theorem group_set {ne nv : Nat} (S : Simplifier) {g : Group} (hg : GroupOk ne nv g) {e v : Point}
    (he : e.length = ne) (hv : v.length = nv) (hne : 0 < ne) (hnv : 0 < nv) :
    ∃ g' b, g.set S e v = some (g', b) ∧ GroupOk ne nv g' ∧ g'.fn = g.fn ∧ g'.kind = g.kind ∧
      ((g.kind = .generic → MapsTo g.fn e v) →
        (b = true ↔ MapsTo g.fn e v) ∧
        ∀ p, Has g'.keys p ↔ Has g.keys p ∨ (p = e ∧ MapsTo g.fn e v)) := by
  rcases hg.kind with hk | ⟨hk, m, hm⟩
  · obtain ⟨t, t1, t2, t3, t4⟩ := simple_inverse_point S hg.fn he hv hne hnv
    obtain ⟨a1, a2⟩ := addKeys_ok hg t2
    refine ⟨_, _, by simp only [Group.set, hk, t1]; rfl, a1, rfl, rfl, fun h => ?_⟩
    have h := h hk
    refine ⟨?_, fun p => by rw [a2, t3 h]; simp [h]⟩
    simp only [h, iff_true, Bool.not_eq_true']
    by_contra hc
    exact (setOk_isEmpty t2).1 (by simpa using hc) e ((t3 h e).2 rfl)
  · obtain ⟨t, cs, a, b, -, c, d, e'⟩ := mapped_spec hg hk
    obtain ⟨e1, e2⟩ := ofPoint_single (q := e) (by rintro rfl; simp at he; omega)
    rw [he] at e1
    simp only [Group.set, hk, a, Option.map_some]
    have hc := containsPoint_iff b hv hnv
    rw [c, ← e' e v he] at hc
    by_cases h : t.containsPoint v = true
    · obtain ⟨a1, a2⟩ := addKeys_ok hg e1
      simp only [h, if_true]
      refine ⟨_, _, rfl, a1, rfl, hk, fun _ => ⟨by simp [hc.1 h], fun p => ?_⟩⟩
      rw [a2, e2]; simp [hc.1 h]
    · have hn : ¬ MapsTo g.fn e v := fun hx => h (hc.2 hx)
      simp only [h, Bool.false_eq_true, if_false]
      exact ⟨_, _, rfl, hg, rfl, hk, fun _ => ⟨by simp [hn], fun p => by simp [hn]⟩⟩

theorem setGroups_spec {ne nv : Nat} (S : Simplifier) {e v : Point}
    (he : e.length = ne) (hv : v.length = nv) (hne : 0 < ne) (hnv : 0 < nv) : ∀ gs : List Group,
    (∀ g ∈ gs, GroupOk ne nv g) → ∃ gs' b, MCIM.setGroups S e v gs = some (gs', b) ∧
      (∀ g ∈ gs', GroupOk ne nv g) ∧
      ((∀ g ∈ gs, g.kind = .generic → MapsTo g.fn e v) →
        (b = true ↔ ∃ g ∈ gs, MapsTo g.fn e v) ∧
        ∀ e' v', (∃ g ∈ gs', Has g.keys e' ∧ MapsTo g.fn e' v') ↔
          (∃ g ∈ gs, (Has g.keys e' ∨ (e' = e ∧ MapsTo g.fn e v)) ∧ MapsTo g.fn e' v')) := by
  intro gs
  induction gs with
  | nil => intro _; exact ⟨[], false, rfl, by simp, by simp⟩
  | cons g gs ih =>
    intro hg
    obtain ⟨gs', b, i1, i2, i3⟩ := ih (fun g h => hg g (by simp [h]))
    obtain ⟨g', b', g1, g2, g3, -, g4⟩ := group_set S (hg g (by simp)) he hv hne hnv
    refine ⟨g' :: gs', b' || b, by simp [MCIM.setGroups, i1, g1], ?_, fun h => ?_⟩
    · intro x hx
      rcases List.mem_cons.1 hx with rfl | hx
      · exact g2
      · exact i2 x hx
    · obtain ⟨j1, j2⟩ := i3 (fun g h' => h g (by simp [h']))
      obtain ⟨k1, k2⟩ := g4 (h g (by simp))
      refine ⟨by simp only [Bool.or_eq_true, j1, k1, List.mem_cons, exists_eq_or_imp], fun e' v' => ?_⟩
      simp only [List.mem_cons, exists_eq_or_imp, j2, k2, g3]

/-- `set`: pointwise if every group that is not of a constant access maps the equation to the
variable. Missing: the matrices with other groups, for which the statement is false. -/
theorem C24_set_partial (S : Simplifier) (ne nv : Nat) (M : MCIM) (e v : Point)
    (hM : MatOk ne nv M) (he : Has M.eqs e) (hv : Has M.vars v) :
    ∃ M', M.set S e v = some M' ∧ MatOk ne nv M' ∧ M'.eqs = M.eqs ∧ M'.vars = M.vars ∧
      ((∀ g ∈ M.groups, g.kind = .generic → MapsTo g.fn e v) →
        ∀ e' v', e'.length = ne → v'.length = nv →
          (Inc M' e' v' ↔ Inc M e' v' ∨ (e' = e ∧ v' = v))) := by
  have hle := has_length hM.eqs he
  have hlv := has_length hM.vars hv
  obtain ⟨gs, b, h1, h2, h3⟩ := setGroups_spec S hle hlv hM.hne hM.hnv M.groups hM.groups
  obtain ⟨p1, p2⟩ := addPoint_spec (x := e ++ v) (by have := hM.hne; omega) hM.points (by simp [hle, hlv])
  have hpts : SetOk (ne + nv) (if b then M.points else M.points.addPoint (e ++ v)) := by
    split_ifs
    · exact hM.points
    · exact p1
  have hM' : MatOk ne nv { M with
      groups := gs, points := if b then M.points else M.points.addPoint (e ++ v) } := by
    refine ⟨hM.hne, hM.hnv, hM.eqs, hM.vars, hM.eqsRank, hM.varsRank, h2, hpts, fun e' v' hl h => ?_⟩
    simp only at h
    split_ifs at h
    · exact hM.inside e' v' hl h
    · rcases (p2 _).1 h with h | h
      · exact hM.inside e' v' hl h
      · obtain ⟨rfl, rfl⟩ := List.append_inj h (by omega)
        exact ⟨he, hv⟩
  refine ⟨_, by simp only [MCIM.set, h1]; rfl, hM', rfl, rfl, fun hg e' v' hl hl' => ?_⟩
  obtain ⟨k1, k2⟩ := h3 hg
  rw [inc_iff hM' hl hl', inc_iff hM hl hl']
  simp only [k2]
  have happ : e' ++ v' = e ++ v ↔ e' = e ∧ v' = v :=
    ⟨fun h => List.append_inj h (by omega), fun h => by rw [h.1, h.2]⟩
  by_cases hb : b = true
  · obtain ⟨g0, hg0, hm0⟩ := k1.1 hb
    simp only [hb, if_true]
    constructor
    · rintro (h | ⟨g, hg, (h | ⟨h, h'⟩), hm⟩)
      · exact Or.inl (Or.inl h)
      · exact Or.inl (Or.inr ⟨g, hg, h, hm⟩)
      · subst h
        exact Or.inr ⟨rfl, mapsTo_unique hm h'⟩
    · rintro ((h | ⟨g, hg, h, hm⟩) | ⟨rfl, rfl⟩)
      · exact Or.inl h
      · exact Or.inr ⟨g, hg, Or.inl h, hm⟩
      · exact Or.inr ⟨g0, hg0, Or.inr ⟨rfl, hm0⟩, hm0⟩
  · have hno : ∀ g ∈ M.groups, ¬ MapsTo g.fn e v := fun g hg hm => hb (k1.2 ⟨g, hg, hm⟩)
    simp only [hb, Bool.false_eq_true, if_false, p2, happ]
    constructor
    · rintro ((h | h) | ⟨g, hg, (h | ⟨h, h'⟩), hm⟩)
      · exact Or.inl (Or.inl h)
      · exact Or.inr h
      · exact Or.inl (Or.inr ⟨g, hg, h, hm⟩)
      · exact absurd h' (hno g hg)
    · rintro ((h | ⟨g, hg, h, hm⟩) | h)
      · exact Or.inl (Or.inl h)
      · exact Or.inr ⟨g, hg, Or.inl h, hm⟩
      · exact Or.inl (Or.inr h)

theorem group_unset {ne nv : Nat} (S : Simplifier) {g : Group} (hg : GroupOk ne nv g) {e v : Point}
    (he : e.length = ne) (hv : v.length = nv) (hne : 0 < ne) (hnv : 0 < nv) :
    ∃ g' b, g.unset S e v = some (g', b) ∧ GroupOk ne nv g' ∧ g'.fn = g.fn ∧
      (∀ p, Has g'.keys p → Has g.keys p) ∧
      (MapsTo g.fn e v → b = true ∧ ∀ p, Has g'.keys p ↔ Has g.keys p ∧ p ≠ e) := by
  rcases hg.kind with hk | ⟨hk, m, hm⟩
  · obtain ⟨t, t1, t2, t3, t4⟩ := simple_inverse_point S hg.fn he hv hne hnv
    obtain ⟨a1, a2⟩ := removeKeys_ok hg t2
    refine ⟨_, _, by simp only [Group.unset, hk, t1]; rfl, a1, rfl, fun p hp => ((a2 p).1 hp).1,
      fun h => ⟨?_, fun p => by rw [a2, t3 h]⟩⟩
    simp only [Bool.not_eq_true']
    by_contra hc
    exact (setOk_isEmpty t2).1 (by simpa using hc) e ((t3 h e).2 rfl)
  · obtain ⟨t, cs, a, b, -, c, d, e'⟩ := mapped_spec hg hk
    obtain ⟨e1, e2⟩ := ofPoint_single (q := e) (by rintro rfl; simp at he; omega)
    rw [he] at e1
    simp only [Group.unset, hk, a, Option.map_some]
    have hc := containsPoint_iff b hv hnv
    rw [c, ← e' e v he] at hc
    by_cases h : t.containsPoint v = true
    · obtain ⟨a1, a2⟩ := removeKeys_ok hg e1
      simp only [h, if_true]
      exact ⟨_, _, rfl, a1, rfl, fun p hp => ((a2 p).1 hp).1, fun _ => ⟨rfl, fun p => by rw [a2, e2]⟩⟩
    · have hn : ¬ MapsTo g.fn e v := fun hx => h (hc.2 hx)
      simp only [h, Bool.false_eq_true, if_false]
      exact ⟨_, _, rfl, hg, rfl, fun p hp => hp, fun hx => absurd hx hn⟩

theorem unsetGroups_spec {ne nv : Nat} (S : Simplifier) {e v : Point}
    (he : e.length = ne) (hv : v.length = nv) (hne : 0 < ne) (hnv : 0 < nv) : ∀ gs : List Group,
    (∀ g ∈ gs, GroupOk ne nv g) → ∃ gs', MCIM.unsetGroups S e v gs = some gs' ∧
      (∀ g ∈ gs', GroupOk ne nv g) ∧
      (∀ e' v', (∃ g ∈ gs', Has g.keys e' ∧ MapsTo g.fn e' v') →
        (∃ g ∈ gs, Has g.keys e' ∧ MapsTo g.fn e' v') ∧ ¬ (e' = e ∧ v' = v)) ∧
      ((∀ g ∈ gs, MapsTo g.fn e v) →
        ∀ e' v', (∃ g ∈ gs', Has g.keys e' ∧ MapsTo g.fn e' v') ↔
          (∃ g ∈ gs, (Has g.keys e' ∧ e' ≠ e) ∧ MapsTo g.fn e' v')) := by
  intro gs
  induction gs with
  | nil => intro _; exact ⟨[], rfl, by simp, by simp, by simp⟩
  | cons g gs ih =>
    intro hg
    obtain ⟨gs', i1, i2, i3, i4⟩ := ih (fun g h => hg g (by simp [h]))
    obtain ⟨g', b', g1, g2, g3, g4, g5⟩ := group_unset S (hg g (by simp)) he hv hne hnv
    have hself : ∀ e' v', Has g'.keys e' → MapsTo g.fn e' v' → ¬ (e' = e ∧ v' = v) := by
      rintro e' v' h1 h2 ⟨rfl, rfl⟩
      exact ((g5 h2).2 e').1 h1 |>.2 rfl
    refine ⟨_, by simp only [MCIM.unsetGroups, i1, g1]; rfl, ?_, ?_, fun h => ?_⟩
    · intro x hx
      split_ifs at hx
      · rcases List.mem_cons.1 hx with rfl | hx
        · exact g2
        · exact i2 x hx
      · exact i2 x hx
    · rintro e' v' ⟨x, hx, h1, h2⟩
      have : (x = g') ∨ x ∈ gs' := by
        split_ifs at hx
        · exact List.mem_cons.1 hx
        · exact Or.inr hx
      rcases this with rfl | hx
      · rw [g3] at h2
        exact ⟨⟨g, by simp, g4 _ h1, h2⟩, hself e' v' h1 h2⟩
      · obtain ⟨⟨y, hy, hy'⟩, h4⟩ := i3 e' v' ⟨x, hx, h1, h2⟩
        exact ⟨⟨y, by simp [hy], hy'⟩, h4⟩
    · have j := i4 (fun g h' => h g (by simp [h']))
      obtain ⟨k1, k2⟩ := g5 (h g (by simp))
      intro e' v'
      simp only [k1, Bool.true_and]
      split_ifs with hemp
      · simp only [List.mem_cons, exists_eq_or_imp, j, k2, g3]
      · have hno := (setOk_isEmpty g2.keys).1 (by simpa using hemp) e'
        rw [k2] at hno
        simp only [List.mem_cons, exists_eq_or_imp, j, hno, false_and, false_or]

/-- `unset`: the incidence is removed and none is added; the other ones are kept if every group
maps the equation to the variable. Missing: the matrices with other groups, for which the statement
is false. -/
theorem C24_unset_partial (S : Simplifier) (ne nv : Nat) (M : MCIM) (e v : Point)
    (hM : MatOk ne nv M) (he : Has M.eqs e) (hv : Has M.vars v) :
    ∃ M', M.unset S e v = some M' ∧ MatOk ne nv M' ∧ M'.eqs = M.eqs ∧ M'.vars = M.vars ∧
      (∀ e' v', e'.length = ne → v'.length = nv → Inc M' e' v' →
        Inc M e' v' ∧ ¬ (e' = e ∧ v' = v)) ∧
      ((∀ g ∈ M.groups, MapsTo g.fn e v) →
        ∀ e' v', e'.length = ne → v'.length = nv →
          (Inc M' e' v' ↔ Inc M e' v' ∧ ¬ (e' = e ∧ v' = v))) := by
  have hle := has_length hM.eqs he
  have hlv := has_length hM.vars hv
  obtain ⟨gs, h1, h2, h3, h4⟩ := unsetGroups_spec S hle hlv hM.hne hM.hnv M.groups hM.groups
  obtain ⟨e1, e2⟩ := ofPoint_single (q := e ++ v) (by
    intro h
    have := hM.hne
    rw [(List.append_eq_nil_iff.1 h).1] at hle
    simp at hle; omega)
  rw [List.length_append, hle, hlv] at e1
  obtain ⟨p1, p2⟩ := minus_spec hM.points e1
  have hM' : MatOk ne nv { M with
      groups := gs, points := M.points.minus (IndexSet.ofPoints [e ++ v]) } :=
    ⟨hM.hne, hM.hnv, hM.eqs, hM.vars, hM.eqsRank, hM.varsRank, h2, p1,
      fun e' v' hl h => hM.inside e' v' hl ((p2 _).1 h).1⟩
  have happ : ∀ e' v' : Point, e'.length = ne → (e' ++ v' = e ++ v ↔ e' = e ∧ v' = v) :=
    fun e' v' h => ⟨fun h => List.append_inj h (by omega), fun h => by rw [h.1, h.2]⟩
  refine ⟨_, by simp only [MCIM.unset, h1]; rfl, hM', rfl, rfl, fun e' v' hl hl' hi => ?_,
    fun hg e' v' hl hl' => ?_⟩
  · rw [inc_iff hM' hl hl'] at hi
    rw [inc_iff hM hl hl']
    rcases hi with h | h
    · obtain ⟨h5, h6⟩ := (p2 _).1 h
      rw [e2, happ e' v' hl] at h6
      exact ⟨Or.inl h5, h6⟩
    · exact ⟨Or.inr (h3 e' v' h).1, (h3 e' v' h).2⟩
  · rw [inc_iff hM' hl hl', inc_iff hM hl hl']
    simp only [h4 hg, p2, e2, happ e' v' hl]
    constructor
    · rintro (⟨h5, h6⟩ | ⟨g, hg', ⟨h5, h6⟩, h7⟩)
      · exact ⟨Or.inl h5, h6⟩
      · exact ⟨Or.inr ⟨g, hg', h5, h7⟩, fun h => h6 h.1⟩
    · rintro ⟨h5 | ⟨g, hg', h5, h7⟩, h6⟩
      · exact Or.inl ⟨h5, h6⟩
      · refine Or.inr ⟨g, hg', ⟨h5, fun h => h6 ⟨h, ?_⟩⟩, h7⟩
        rw [h] at h7
        exact mapsTo_unique h7 (hg g hg')

/-- Every matrix obtained by a history of operations is well formed, so that the theorems above
apply to it. -/
theorem C24_reach (S : Simplifier) (ne nv : Nat) (eqs vars : IndexSet) (h1 : 0 < ne) (h2 : 0 < nv)
    (he : SetOk ne eqs) (hv : SetOk nv vars) (hre : eqs.rank = ne) (hrv : vars.rank = nv) (M : MCIM)
    (h : Reach S ne nv eqs vars M) : MatOk ne nv M ∧ M.eqs = eqs ∧ M.vars = vars := by
  induction h with
  | new => exact ⟨(C25_new ne nv eqs vars h1 h2 he hv hre hrv).1, rfl, rfl⟩
  | apply hr hf ha ih =>
    obtain ⟨M', a, b, c, d, -⟩ := C25_apply_partial S ne nv _ eqs _ ih.1 hf he
    rw [ha] at a; cases a
    exact ⟨b, c.trans ih.2.1, d.trans ih.2.2⟩
  | set hr h3 h4 ha ih =>
    obtain ⟨M', a, b, c, d, -⟩ := C24_set_partial S ne nv _ _ _ ih.1 (ih.2.1 ▸ h3) (ih.2.2 ▸ h4)
    rw [ha] at a; cases a
    exact ⟨b, c.trans ih.2.1, d.trans ih.2.2⟩
  | unset hr h3 h4 ha ih =>
    obtain ⟨M', a, b, c, d, -⟩ := C24_unset_partial S ne nv _ _ _ ih.1 (ih.2.1 ▸ h3) (ih.2.2 ▸ h4)
    rw [ha] at a; cases a
    exact ⟨b, c.trans ih.2.1, d.trans ih.2.2⟩

-- The access `i ↦ 2` on [0, 4) x [0, 4): setting (1, 3) adds a point, unsetting (1, 2) a key.
example : (((MCIM.new four four).apply idSimp four constTwo).bind fun M =>
    (M.set idSimp [1] [3])).map
      (fun M => [M.get [1] [2], M.get [1] [3], M.get [0] [3]]) =
    some [some true, some true, some false] := by decide +kernel
example : (((MCIM.new four four).apply idSimp four constTwo).bind fun M =>
    (M.unset idSimp [1] [2])).map
      (fun M => [M.get [1] [2], M.get [3] [2]]) = some [some false, some true] := by decide +kernel

end Props
end Marco
