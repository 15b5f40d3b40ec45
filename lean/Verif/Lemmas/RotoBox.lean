import Verif.Props.C23_InverseMap

/-!
# `inverseMap` of offset/permutation accesses when the parent indices are one box

With a single box, the dimensions not used by the access can be put back without leaving the
parent indices.
-/

namespace Marco
open Marco.Spec Marco.IndexSet Marco.AccessFn Marco.Props

theorem expandBox_inB : ∀ (u : List Bool) (x q : Box) (p p' : Point), q.length = u.length →
    x.length = u.count true → InB p (expandBox u x q) → InB p' q →
    (∀ d : Nat, u[d]? = some true → p[d]? = p'[d]?) → InB p q := by
  intro u
  induction u with
  | nil =>
    intro x q p p' hl _ hp hp' _
    cases q with
    | nil => simpa [expandBox] using hp
    | cons => simp at hl
  | cons b u ih =>
    intro x q p p' hl hx hp hp' hd
    cases q with
    | nil => simp at hl
    | cons r q =>
      cases hp' with
      | @cons _ y' _ p' h1' h2' =>
        have hd' : ∀ (y : Int) (p : Point), (∀ d : Nat, (b :: u)[d]? = some true →
            (y :: p)[d]? = (y' :: p')[d]?) → ∀ d : Nat, u[d]? = some true → p[d]? = p'[d]? := by
          intro y p h d hu
          have := h (d + 1) (by simpa using hu)
          simpa using this
        cases b with
        | false =>
          simp only [expandBox] at hp
          cases hp with
          | @cons _ y _ p h1 h2 =>
            exact .cons h1 (ih x q p p' (by simpa using hl) (by simpa using hx) h2 h2' (hd' y p hd))
        | true =>
          cases x with
          | nil => simp at hx
          | cons r' x =>
            simp only [expandBox] at hp
            cases hp with
            | @cons _ y _ p h1 h2 =>
              have e : y = y' := by simpa using hd 0 (by simp)
              subst e
              exact .cons h1' (ih x q p p' (by simpa using hl) (by simpa using hx) h2 h2' (hd' y p hd))

/-- Two points whose images agree on the results that use a dimension agree on the used
dimensions, and have the same image. -/
theorem roto_agree {m : AffineMap} (hm : RotoOk m) {p p' q0 q : Point} (h0 : Vals m.results p q0)
    (h : Vals m.results p' q)
    (hs : selectCoords q0 (usedResults m) = selectCoords q (usedResults m)) :
    (∀ d : Nat, (usedDims m)[d]? = some true → p[d]? = p'[d]?) ∧ q0 = q := by
  have hrl : (usedResults m).length = m.results.length := by simp [usedResults]
  have l0 := (vals_iff_get.1 h0).1
  have l1 := (vals_iff_get.1 h).1
  have hq : ∀ (i : Nat) e d c, m.results[i]? = some e → Roto m.dims e (some d) c → q0[i]? = q[i]? := by
    intro i e d c hi hr
    have hu : (usedResults m)[i]? = some true := by
      simp [usedResults, hi, roto_inductionVar hr]
    rw [← select_get q0 _ i (by rw [hrl, l0]) hu, ← select_get q _ i (by rw [hrl, l1]) hu, hs]
  have hall : q0 = q := by
    apply List.ext_getElem?
    intro i
    by_cases hi : i < m.results.length
    · have hi' := List.getElem?_eq_getElem hi
      obtain ⟨w, c, hr⟩ := hm.form _ (List.getElem_mem hi)
      cases w with
      | some d => exact hq i _ d c hi' hr
      | none =>
        have a0 := (vals_iff_get.1 h0).2 i _ (q0[i]'(by omega)) hi' (List.getElem?_eq_getElem _)
        have a1 := (vals_iff_get.1 h).2 i _ (q[i]'(by omega)) hi' (List.getElem?_eq_getElem _)
        rw [List.getElem?_eq_getElem (by omega), List.getElem?_eq_getElem (by omega)]
        generalize m.results[i] = e at hr a0 a1
        cases hr
        simp only [AExpr.eval, Option.some.injEq] at a0 a1
        rw [← a0, ← a1]
    · rw [List.getElem?_eq_none (by omega), List.getElem?_eq_none (by omega)]
  refine ⟨fun d hd => ?_, hall⟩
  subst hall
  obtain ⟨⟨e, he, hv⟩, -⟩ := (usedDims_get m d).1 hd
  obtain ⟨w, c, hr⟩ := hm.form e he
  rw [roto_inductionVar hr] at hv
  subst hv
  obtain ⟨i, hi⟩ := List.getElem?_of_mem he
  have hi' : i < q0.length := by rw [← l0]; exact (List.getElem?_eq_some_iff.1 hi).1
  have e1 := (vals_iff_get.1 h0).2 i e q0[i] hi (List.getElem?_eq_getElem hi')
  have e2 := (vals_iff_get.1 h).2 i e q0[i] hi (List.getElem?_eq_getElem hi')
  rw [roto_eval hr] at e1 e2
  rw [e1, e2]

/-- `inverseMap` is exact if the parent indices are one box and every accessed index is the image
of one of its points. -/
theorem roto_inverse_box (S : Simplifier) {m : AffineMap} (hm : RotoOk m)
    (hsome : ∃ e ∈ m.results, ∃ d c, Roto m.dims e (some d) c) {acc par : IndexSet} {b : Box}
    (ha : SetOk m.results.length acc) (hp : SetOk m.dims par) (hb : par.ranges = [b])
    (himg : ∀ q, Has acc q → ∃ p, InB p b ∧ Vals m.results p q) :
    ∃ t, (AccessFn.roto m).inverseMap S acc par = some t ∧ SetOk m.dims t ∧
      ∀ p, Has t p ↔ InB p b ∧ ∃ q, Vals m.results p q ∧ Has acc q := by
  have hpar : ∀ p, Has par p ↔ InB p b := by intro p; simp [Has, InL, hb]
  have hrb : Ranked m.dims b := ranges_ranked hp b (by simp [hb])
  suffices h : ∃ t, rotoInverseMap S m acc par = some t ∧ SetOk m.dims t ∧
      (∀ p q, Has par p → Vals m.results p q → Has acc q → Has t p) ∧
      (∀ p, Has t p → InB p b ∧ ∃ q, Vals m.results p q ∧ Has acc q) by
    obtain ⟨t, h1, h2, h3, h4⟩ := h
    exact ⟨t, h1, h2, fun p => ⟨h4 p, fun ⟨a, q, b, c⟩ => h3 p q ((hpar p).2 a) b c⟩⟩
  unfold rotoInverseMap
  by_cases h0 : (acc.isEmpty && !par.isEmpty && m.results.length != 0) = true
  · rw [if_pos h0]
    refine ⟨_, rfl, setOk_empty _, fun p q _ _ hq => ?_, fun p h => absurd h (not_has_empty p)⟩
    simp only [Bool.and_eq_true] at h0
    exact absurd hq ((setOk_isEmpty ha).1 h0.1.1 q)
  rw [if_neg h0]
  have hlen : ∀ p, InB p b → p.length = m.dims := fun p h => has_length hp ((hpar p).2 h)
  by_cases h1 : ((rotoInverse S m).isSome && (!acc.isEmpty && !par.isEmpty && acc.rank == par.rank)) = true
  · rw [if_pos h1]
    obtain ⟨t, t1, t2, t3, t4⟩ := direct_spec S hm ha hp
    refine ⟨t, t1, t2, t3, fun p h => ?_⟩
    obtain ⟨a, q, b', c⟩ := t4 p h
    obtain ⟨p', hp', hv'⟩ := himg q c
    rw [Bool.and_eq_true] at h1
    obtain ⟨g, hg⟩ := Option.isSome_iff_exists.1 h1.1
    have hinv := rotoInvertible_of_inverse hg
    have hd : (usedDims m).all id = true := by
      rw [usedDims_all hm]
      intro d hd
      obtain ⟨hl, ds, hi, hi'⟩ := (rotoInvertible_iff hm).1 hinv
      obtain ⟨i, hi2⟩ := List.getElem?_of_mem (hi' d hd)
      obtain ⟨e, he, hv⟩ := dims_get' hi hi2
      obtain ⟨w, c, hr⟩ := hm.form e (List.mem_of_getElem? he)
      rw [roto_inductionVar hr] at hv
      subst hv
      exact ⟨e, List.mem_of_getElem? he, c, hr⟩
    obtain ⟨e1, -⟩ := roto_agree hm b' hv' rfl
    have : p = p' := by
      apply List.ext_getElem?
      intro d
      by_cases hd' : d < m.dims
      · have hl : d < (usedDims m).length := by rw [usedDims_length]; exact hd'
        refine e1 d ?_
        rw [List.getElem?_eq_getElem hl]
        have := List.all_eq_true.1 hd _ (List.getElem_mem hl)
        simpa using this
      · rw [List.getElem?_eq_none (by omega), List.getElem?_eq_none (by rw [hlen p' hp']; omega)]
    rw [this] at b' ⊢
    exact ⟨hp', q, b', c⟩
  rw [if_neg h1]
  obtain ⟨hro, hrn⟩ := reduced_ok hm hsome
  obtain ⟨e0, he0, d0, c0, hr0⟩ := hsome
  by_cases h2 : (!(usedDims m).all id || !(usedResults m).all id) = true
  · simp only [h2, if_true]
    have htu : true ∈ usedDims m := List.mem_of_getElem? (usedDims_roto he0 hr0)
    have htr : true ∈ usedResults m := by
      rw [usedResults, List.mem_map]
      exact ⟨e0, he0, by simp [roto_inductionVar hr0]⟩
    have hrl : (usedResults m).length = m.results.length := by simp [usedResults]
    obtain ⟨pa1, pa2⟩ := C12_takeDims _ par (usedDims m) hp (usedDims_length m) htu
    obtain ⟨ac1, ac2⟩ := C12_takeDims _ acc (usedResults m) ha hrl htr
    have hcount : (usedResults m).count true = (reducedMap m).results.length := by
      obtain ⟨q, hq⟩ := rotoOk_vals hm (p := List.replicate m.dims 0) (by simp)
      have h := reduced_vals hm (by simp) hq
      rw [h.length_eq, select_length]
      rw [hrl, hq.length_eq]
    rw [hcount] at ac1
    obtain ⟨t, t1, t2, t3, t4⟩ := reduced_spec S hro hrn ac1 pa1
    have hdim : (reducedMap m).dims = (usedDims m).count true := rfl
    have hcomp : ∀ p q, Has par p → Vals m.results p q → Has acc q →
        Has t (selectCoords p (usedDims m)) := by
      intro p q hp' hv hq
      have hl : p.length = m.dims := has_length hp hp'
      exact t3 _ _ ((pa2 _).2 ⟨p, hp', rfl⟩) (reduced_vals hm hl hv) ((ac2 _).2 ⟨q, hq, rfl⟩)
    have hsnd : ∀ p : Point, p.length = m.dims → Has t (selectCoords p (usedDims m)) →
        ∃ p' q, InB p' b ∧ Vals m.results p q ∧ Has acc q ∧
          ∀ d : Nat, (usedDims m)[d]? = some true → p[d]? = p'[d]? := by
      intro p hl h
      obtain ⟨-, q', hv', hq'⟩ := t4 _ h
      obtain ⟨q0, hq0⟩ := rotoOk_vals hm (p := p) (by omega)
      have := vals_unique hv' (reduced_vals hm hl hq0)
      subst this
      obtain ⟨a, ha1, ha2⟩ := (ac2 _).1 hq'
      obtain ⟨p', hp', hv''⟩ := himg a ha1
      obtain ⟨r1, r2⟩ := roto_agree hm hq0 hv'' (by first | exact ha2 | exact ha2.symm)
      subst r2
      exact ⟨p', q0, hp', hq0, ha1, r1⟩
    by_cases h3 : (usedDims m).all id = true
    · have hcd : (usedDims m).count true = m.dims := by
        rw [← usedDims_length m, List.count_eq_length]
        intro b hb
        exact (List.all_eq_true.1 h3 b hb).symm
      rw [hdim, hcd] at t2
      refine ⟨t, by simp [t1, h3], t2, fun p q hp' hv hq => ?_, fun p h => ?_⟩
      · have := hcomp p q hp' hv hq
        rwa [select_all p _ (by rw [usedDims_length, has_length hp hp']) h3] at this
      · have hl := has_length t2 h
        obtain ⟨p', q, a1, a2, a3, a4⟩ := hsnd p hl
          (by rw [select_all p _ (by rw [usedDims_length, hl]) h3]; exact h)
        have : p = p' := by
          apply List.ext_getElem?
          intro d
          by_cases hd' : d < m.dims
          · have hl : d < (usedDims m).length := by rw [usedDims_length]; exact hd'
            refine a4 d ?_
            rw [List.getElem?_eq_getElem hl]
            have := List.all_eq_true.1 h3 _ (List.getElem_mem hl)
            simpa using this
          · rw [List.getElem?_eq_none (by omega), List.getElem?_eq_none (by rw [hlen p' a1]; omega)]
        rw [this] at a2 ⊢
        exact ⟨a1, q, a2, a3⟩
    · have hrk : ∀ b ∈ par.ranges.flatMap (fun q => t.ranges.map fun x => expandBox (usedDims m) x q),
          Ranked m.dims b := by
        intro b hb
        obtain ⟨q, hq, hb⟩ := List.mem_flatMap.1 hb
        obtain ⟨x, hx, rfl⟩ := List.mem_map.1 hb
        have hq' := ranges_ranked hp q hq
        have hx' := ranges_ranked t2 x hx
        obtain ⟨v1, v2⟩ := expandBox_valid (usedDims m) x q (by rw [hq'.2, usedDims_length]) hx'.2
          hx'.1.2 hq'.1.2
        rw [usedDims_length] at v1
        refine ⟨⟨?_, v2⟩, v1⟩
        rw [← List.length_pos_iff, v1]
        exact Nat.pos_of_ne_zero hm.dims
      obtain ⟨o1, -, o3, -⟩ := ofRanges_spec hrk
      refine ⟨_, by simp [t1, h3], o1, fun p q hp' hv hq => ?_, fun p h => ?_⟩
      · rw [o3]
        obtain ⟨x, hx, hx'⟩ := hcomp p q hp' hv hq
        obtain ⟨b, hb, hb'⟩ := hp'
        refine ⟨expandBox (usedDims m) x b, List.mem_flatMap.2 ⟨b, hb, List.mem_map.2 ⟨x, hx, rfl⟩⟩, ?_⟩
        exact expandBox_complete _ x b p (by rw [(ranges_ranked hp b hb).2, usedDims_length]) hb' hx'
      · have hl := has_length o1 h
        rw [o3] at h
        obtain ⟨b', hb', hin⟩ := h
        obtain ⟨q, hq, hb'⟩ := List.mem_flatMap.1 hb'
        obtain ⟨x, hx, rfl⟩ := List.mem_map.1 hb'
        have hqb : q = b := by simpa [hb] using hq
        subst hqb
        have hxr := (ranges_ranked t2 x hx).2
        obtain ⟨p', q', a1, a2, a3, a4⟩ := hsnd p hl ⟨x, hx,
          expandBox_sound _ x q p (by rw [hrb.2, usedDims_length]) hxr hin⟩
        exact ⟨expandBox_inB _ x q p p' (by rw [hrb.2, usedDims_length]) hxr hin a1 a4, q', a2, a3⟩
  · simp only [h2, Bool.false_eq_true, if_false]
    obtain ⟨t, a1, a2, a3⟩ := roto_base hm ha hp
    refine ⟨t, a1, a2, fun p q hp' hv hq => ?_, fun p h => ?_⟩
    · rw [a3, inPreimage_roto hm hp]
      exact ⟨hp', q, hv, hq⟩
    · rw [a3, inPreimage_roto hm hp] at h
      exact ⟨(hpar p).1 h.1, h.2⟩

end Marco
