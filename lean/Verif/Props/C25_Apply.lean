import Verif.Lemmas.MCIMLin

/-!
# C25: applying an access to an incidence matrix marks exactly its incidences
-/

namespace Marco
namespace Props
open Marco.Spec Marco.IndexSet Marco.AccessFn

/-- The full statement, for a new matrix. -/
def C25_full : Prop := ∀ (S : Simplifier) (ne nv : Nat) (eqs vars : IndexSet) (f : AccessFn)
    (M : MCIM), SetOk ne eqs → SetOk nv vars → f.dims = ne → f.numResults = nv →
    (MCIM.new eqs vars).apply S eqs f = some M →
    ∀ e v, Has eqs e → Has vars v → (Inc M e v ↔ ∃ t, f.mapPoint e = some t ∧ Has t v)

/-- The access `d0 + [0, 2)`: equation `i` uses the variables `i` and `i + 1`. -/
def pairAccess : AccessFn := .generic 1 [.add (.dim 0) (.range ⟨0, 2⟩)]

/-- MCIM.cpp:387-407: an equation is kept only if all the variables it accesses are inside of the
variable space, hence the incidence (0, 0) is lost if the variable space is `{0}`. -/
theorem C25_apply_false : ¬ C25_full := by
  intro h
  have e1 := interval_ok 0 1 (by decide)
  have hm : ((MCIM.new (IndexSet.ofRanges [[⟨0, 1⟩]]) (IndexSet.ofRanges [[⟨0, 1⟩]])).apply idSimp
      (IndexSet.ofRanges [[⟨0, 1⟩]]) pairAccess).isSome = true := by decide +kernel
  obtain ⟨M, hM⟩ := Option.isSome_iff_exists.1 hm
  have h1 := h idSimp 1 1 _ _ pairAccess M e1.1 e1.1 rfl rfl hM [0] [0]
    ((e1.2 [0]).2 ⟨0, rfl, by decide, by decide⟩) ((e1.2 [0]).2 ⟨0, rfl, by decide, by decide⟩)
  have h2 : ((MCIM.new (IndexSet.ofRanges [[⟨0, 1⟩]]) (IndexSet.ofRanges [[⟨0, 1⟩]])).apply idSimp
      (IndexSet.ofRanges [[⟨0, 1⟩]]) pairAccess).bind (fun M => M.get [0] [0]) = some false := by
    decide +kernel
  rw [hM] at h2
  have h3 : M.get [0] [0] = some false := h2
  have h4 : ((pairAccess.mapPoint [0]).map IndexSet.points) = some [[0], [1]] := by decide +kernel
  obtain ⟨t, ht, hp⟩ := Option.map_eq_some_iff.1 h4
  have h5 : Inc M [0] [0] := h1.2 ⟨t, ht, mem_points.1 (by rw [hp]; decide)⟩
  rw [Inc, h3] at h5
  cases h5

/-- `apply` for the offset/permutation functions using every dimension once and for the constant
functions, to any part of the equation space of any matrix. Missing: the other functions, for
which the statement is false. -/
theorem C25_apply_partial (S : Simplifier) (ne nv : Nat) (M : MCIM) (eqs : IndexSet) (f : AccessFn)
    (hM : MatOk ne nv M) (hf : FnSimple ne nv f) (he : SetOk ne eqs) :
    ∃ M', M.apply S eqs f = some M' ∧ MatOk ne nv M' ∧ M'.eqs = M.eqs ∧ M'.vars = M.vars ∧
      ∀ e v, e.length = ne → v.length = nv →
        (Inc M' e v ↔ Inc M e v ∨ (Has eqs e ∧ Has M.vars v ∧ MapsTo f e v)) := by
  obtain ⟨img, i1, i2, i3⟩ := simple_image hf he
  obtain ⟨a1, a2⟩ := C11_intersectSet nv img M.vars i2 hM.vars
  obtain ⟨keys, k1, k2, k3⟩ := simple_inverse S hf a1 (intersectSet_disj i2 hM.vars) he (fun q hq => by
    rw [a2, i3] at hq; exact hq.1)
  have hkey : ∀ e v, e.length = ne → (Has keys e ∧ MapsTo f e v ↔
      Has eqs e ∧ Has M.vars v ∧ MapsTo f e v) := by
    intro e v _
    rw [k3]
    constructor
    · rintro ⟨⟨h1, q, h2, h3⟩, h4⟩
      have := mapsTo_unique h2 h4
      subst this
      exact ⟨h1, ((a2 q).1 h3).2, h4⟩
    · rintro ⟨h1, h2, h3⟩
      exact ⟨⟨h1, v, h3, (a2 v).2 ⟨(i3 v).2 ⟨e, h1, h3⟩, h2⟩⟩, h3⟩
  simp only [MCIM.apply, i1, k1, Option.bind_eq_bind, Option.bind_some]
  by_cases hke : keys.isEmpty = true
  · refine ⟨M, by simp [hke], hM, rfl, rfl, fun e v hle hlv => ?_⟩
    have := (setOk_isEmpty k2).1 hke e
    have h2 := hkey e v hle
    tauto
  · obtain ⟨g1, g2⟩ := addToGroup_ok hf k2 M.groups hM.groups
    have hM' : MatOk ne nv { M with groups := MCIM.addToGroup f keys M.groups } :=
      ⟨hM.hne, hM.hnv, hM.eqs, hM.vars, hM.eqsRank, hM.varsRank, g1, hM.points, hM.inside⟩
    refine ⟨_, by simp [hke], hM', rfl, rfl, fun e v hle hlv => ?_⟩
    rw [inc_iff hM' hle hlv, inc_iff hM hle hlv]
    simp only [g2, hkey e v hle, or_assoc]

/-- `apply` for the offset/permutation functions with unused dimensions or constant results (and
for the constant functions), to one box of equations. Missing: several boxes at once, for which
the unused dimensions may be filled with values of another box. -/
theorem C25_apply_box_partial (S : Simplifier) (ne nv : Nat) (M : MCIM) (eqs : IndexSet) (b : Box)
    (f : AccessFn) (hM : MatLin ne nv M) (hf : FnLin ne nv f) (he : SetOk ne eqs)
    (hb : eqs.ranges = [b]) :
    ∃ M', M.apply S eqs f = some M' ∧ MatLin ne nv M' ∧ M'.eqs = M.eqs ∧ M'.vars = M.vars ∧
      M'.points = M.points ∧ ∀ e v, e.length = ne → v.length = nv →
        (Inc M' e v ↔ Inc M e v ∨ (InB e b ∧ Has M.vars v ∧ MapsTo f e v)) := by
  have hpar : ∀ p, Has eqs p ↔ InB p b := by intro p; simp [Has, InL, hb]
  obtain ⟨img, i1, i2, i3⟩ := lin_image hf he
  obtain ⟨a1, a2⟩ := C11_intersectSet nv img M.vars i2 hM.vars
  obtain ⟨keys, k1, k2, k3⟩ := lin_inverse_box S hf a1 (intersectSet_disj i2 hM.vars) he hb
    (fun q hq => by rw [a2, i3] at hq; exact hq.1)
  have hkey : ∀ e v, e.length = ne → (Has keys e ∧ MapsTo f e v ↔
      InB e b ∧ Has M.vars v ∧ MapsTo f e v) := by
    intro e v _
    rw [k3, ← hpar]
    constructor
    · rintro ⟨⟨h1, q, h2, h3⟩, h4⟩
      have := mapsTo_unique h2 h4
      subst this
      exact ⟨h1, ((a2 q).1 h3).2, h4⟩
    · rintro ⟨h1, h2, h3⟩
      exact ⟨⟨h1, v, h3, (a2 v).2 ⟨(i3 v).2 ⟨e, h1, h3⟩, h2⟩⟩, h3⟩
  simp only [MCIM.apply, i1, k1, Option.bind_eq_bind, Option.bind_some]
  by_cases hke : keys.isEmpty = true
  · refine ⟨M, by simp [hke], hM, rfl, rfl, rfl, fun e v hle hlv => ?_⟩
    have := (setOk_isEmpty k2).1 hke e
    have h2 := hkey e v hle
    tauto
  · obtain ⟨g1, g2⟩ := lin_addToGroup hf k2 M.groups hM.groups
    have hM' : MatLin ne nv { M with groups := MCIM.addToGroup f keys M.groups } :=
      ⟨hM.hne, hM.hnv, hM.eqs, hM.vars, hM.eqsRank, hM.varsRank, g1, hM.points, hM.inside⟩
    refine ⟨_, by simp [hke], hM', rfl, rfl, rfl, fun e v hle hlv => ?_⟩
    rw [inc_lin hM' hle hlv, inc_lin hM hle hlv]
    simp only [g2, hkey e v hle, or_assoc]

/-- A matrix on which nothing was applied has no incidence. -/
theorem C25_new (ne nv : Nat) (eqs vars : IndexSet) (h1 : 0 < ne) (h2 : 0 < nv) (he : SetOk ne eqs)
    (hv : SetOk nv vars) (hre : eqs.rank = ne) (hrv : vars.rank = nv) :
    MatOk ne nv (MCIM.new eqs vars) ∧
      ∀ e v, e.length = ne → v.length = nv → ¬ Inc (MCIM.new eqs vars) e v := by
  have hM : MatOk ne nv (MCIM.new eqs vars) := ⟨h1, h2, he, hv, hre, hrv, by simp [MCIM.new],
    setOk_empty _, fun e v _ h => absurd h (not_has_empty _)⟩
  refine ⟨hM, fun e v hle hlv => ?_⟩
  rw [inc_iff hM hle hlv]
  simp [MCIM.new, not_has_empty]

-- The access `i ↦ i + 1` applied to the equations [0, 4) with the variables [0, 4): the last
-- equation is out of the matrix.
theorem shift_simple : FnSimple 1 1 (.roto shiftMap) :=
  .perm shiftMap_ok (by
      intro i j e e' d c c' h1 h2 _ _
      have := (List.getElem?_eq_some_iff.1 h1).1
      have := (List.getElem?_eq_some_iff.1 h2).1
      simp [shiftMap] at *
      omega)
    (by
      intro d hd
      have : d = 0 := by simp [shiftMap] at hd; omega
      subst this
      exact ⟨_, List.mem_singleton.2 rfl, 1, .addR 1 (by decide)⟩)
    (by
      intro e he
      simp only [shiftMap, List.mem_cons, List.not_mem_nil, or_false] at he
      subst he
      exact ⟨_, _, .addR 1 (by decide)⟩) rfl rfl

example : ((MCIM.new (IndexSet.ofRanges [[⟨0, 4⟩]]) (IndexSet.ofRanges [[⟨0, 4⟩]])).apply idSimp
    (IndexSet.ofRanges [[⟨0, 4⟩]]) (.roto shiftMap)).map
      (fun M => [M.get [0] [1], M.get [2] [3], M.get [3] [3], M.get [0] [0]]) =
    some [some true, some true, some false, some false] := by decide +kernel

-- An access with an unused dimension and a constant result: `(d0, d1) ↦ (d1 + 1, 7)`.
/-- Sample access with an unused dimension and a constant result. -/
def sampleLin : AffineMap := ⟨2, [.add (.dim 1) (.const 1), .const 7]⟩

theorem sampleLin_lin : FnLin 2 2 (.roto sampleLin) :=
  .roto ⟨by decide, by decide, by
      intro e he
      simp only [sampleLin, List.mem_cons, List.not_mem_nil, or_false] at he
      rcases he with rfl | rfl
      · exact ⟨_, _, .addR 1 (by decide)⟩
      · exact ⟨_, _, .const 7⟩⟩
    (by
      intro i j e e' d c c' h1 h2 r1 r2
      have hc : ∀ (k : Nat) (x : AExpr) (c : Int), sampleLin.results[k]? = some x →
          Roto sampleLin.dims x (some d) c → k = 0 := by
        intro k x c hk hr
        match k with
        | 0 => rfl
        | 1 =>
          simp only [sampleLin, List.getElem?_cons_succ, List.getElem?_cons_zero,
            Option.some.injEq] at hk
          subst hk
          cases hr
        | k + 2 => simp [sampleLin] at hk
      rw [hc i e c h1 r1, hc j e' c' h2 r2])
    ⟨_, List.mem_cons_self, 1, 1, .addR 1 (by decide)⟩ rfl rfl

example : ((MCIM.new (IndexSet.ofRanges [[⟨0, 2⟩, ⟨0, 3⟩]])
    (IndexSet.ofRanges [[⟨0, 3⟩, ⟨5, 9⟩]])).apply idSimp
    (IndexSet.ofRanges [[⟨0, 2⟩, ⟨0, 3⟩]]) (.roto sampleLin)).map
      (fun M => [M.get [0, 0] [1, 7], M.get [1, 1] [2, 7], M.get [1, 1] [2, 6],
        M.get [1, 2] [3, 7]]) =
    some [some true, some true, some false, some false] := by decide +kernel

end Props
end Marco
