import Verif.Model.Substitution
import Verif.Spec.Substitution
import Verif.Lemmas.InverseMap
import Verif.Props.C23_InverseMap

/-!
# Lemmas about the replacement of accesses
-/

namespace Marco.Props
open Marco Spec IndexSet DimAccess AccessFn Subst

/-- `combine` on affine accesses, as values. -/
theorem combine_vals (S : Simplifier) {f h : AccessFn} (hf : f.isAffine = true)
    (hh : h.isAffine = true) : ∃ es, f.combine S h = dispatch f.dims (es.map DimAccess.build) ∧
      es.length = h.affineMap.results.length ∧
      ((∀ e ∈ f.affineMap.results, e.NoDiv) → (∀ e ∈ h.affineMap.results, e.NoDiv) →
        ∀ e ∈ es, e.NoDiv) ∧
      ∀ p q r, f.dims ≤ p.length → h.dims ≤ q.length → Vals f.affineMap.results p q →
        Vals h.affineMap.results q r → Vals es p r := by
  obtain ⟨es, e1, e2, e3, e4⟩ := withDims_affine S hh f.numResults
  obtain ⟨d1, d2, d3, -, -⟩ := dispatch_affine (max h.dims f.numResults) es
  have hc : f.combine S h = buildMap S (compose ⟨max h.dims f.numResults, es⟩ f.affineMap) := by
    unfold combine
    simp only [e1, d1, hf, Bool.and_self, if_true, d2]
  rw [hc, buildMap_eq]
  refine ⟨_, by rw [show (compose ⟨max h.dims f.numResults, es⟩ f.affineMap).dims = f.dims from
    affineMap_dims f], by simp [compose, e2], ?_, ?_⟩
  · intro nf nh e he
    simp only [compose, List.mem_map] at he
    obtain ⟨_, ⟨e0, he0, rfl⟩, rfl⟩ := he
    exact S.noDiv _ _ (AExpr.noDiv_subst nf (e3 nh e0 he0))
  · intro p q r hp hq v1 v2
    refine vals_simp S hp (vals_subst v1 (e4 q r ?_ v2))
    have := v1.length_eq
    rw [affineMap_results_length hf] at this
    omega

theorem dropResults_vals {p : Point} : ∀ {es : List AExpr} {r : Point} (fs : List Bool),
    Vals es p r → Vals (dropResults fs es) p (dropResults fs r) := by
  intro es r fs h
  induction h generalizing fs with
  | nil => cases fs <;> exact .nil
  | cons h1 h2 ih =>
    match fs with
    | [] => exact .cons h1 h2
    | true :: fs => exact ih fs
    | false :: fs => exact .cons h1 (ih fs)

theorem mem_dropResults {α : Type} {x : α} : ∀ {fs : List Bool} {l : List α},
    x ∈ dropResults fs l → x ∈ l := by
  intro fs l
  induction l generalizing fs with
  | nil => cases fs <;> simp [dropResults]
  | cons y l ih =>
    match fs with
    | [] => exact id
    | true :: fs => intro h; exact List.mem_cons_of_mem _ (ih h)
    | false :: fs =>
      intro h
      rcases List.mem_cons.1 h with rfl | h
      · simp
      · exact List.mem_cons_of_mem _ (ih h)

theorem occurring_length (m : AffineMap) : (occurring m).length = m.dims := by simp [occurring]

/-- The renaming of the dimensions of `compressDims`. -/
def renUsed (m : AffineMap) : List AExpr :=
  (List.range m.dims).map fun d => AExpr.dim (((occurring m).take d).count true)

theorem subst_renUsed {m : AffineMap} {q : Point} (hq : q.length = m.dims) {e : AExpr}
    (hb : e.Below m.dims) (hu : ∀ d, e.uses d = true → (occurring m)[d]? = some true) :
    (e.subst (renUsed m)).eval (selectCoords q (occurring m)) = e.eval q ∧
    (e.subst (renUsed m)).Below ((occurring m).count true) ∧
    (e.NoDiv → (e.subst (renUsed m)).NoDiv) := by
  induction e with
  | const v => exact ⟨rfl, trivial, id⟩
  | dim d =>
    have hd : d < m.dims := hb
    have h1 := hu d (by simp [AExpr.uses])
    have e1 : (AExpr.dim d).subst (renUsed m) =
        AExpr.dim (((occurring m).take d).count true) := by
      simp [AExpr.subst, renUsed, hd]
    rw [e1]
    refine ⟨select_get q _ d (by rw [hq, occurring_length]) h1, ?_, fun _ => trivial⟩
    show _ < _
    have h2 : ((occurring m).take (d + 1)).count true ≤ (occurring m).count true :=
      (List.take_sublist _ _).count_le _
    rw [List.take_add_one, h1] at h2
    simp at h2
    omega
  | add a b iha ihb | mul a b iha ihb | floorDiv a b iha ihb =>
    obtain ⟨a1, a2, a3⟩ := iha hb.1 (fun d hd => hu d (by simp [AExpr.uses, hd]))
    obtain ⟨b1, b2, b3⟩ := ihb hb.2 (fun d hd => hu d (by simp [AExpr.uses, hd]))
    refine ⟨by simp [AExpr.subst, AExpr.eval, a1, b1], ⟨a2, b2⟩, ?_⟩
    intro h
    first
      | exact ⟨a3 h.1, b3 h.2⟩
      | exact absurd h (by simp [AExpr.NoDiv])

theorem occurs_of_mem {m : AffineMap} {e : AExpr} (he : e ∈ m.results) (hb : e.Below m.dims) :
    ∀ d, e.uses d = true → (occurring m)[d]? = some true := by
  intro d hd
  have hlt : d < m.dims := by
    clear he
    induction e with
    | const v => simp [AExpr.uses] at hd
    | dim k => simp [AExpr.uses] at hd; subst hd; exact hb
    | add a b iha ihb | mul a b iha ihb | floorDiv a b iha ihb =>
      simp only [AExpr.uses, Bool.or_eq_true] at hd
      rcases hd with h | h
      · exact iha hb.1 h
      · exact ihb hb.2 h
  simp only [occurring, List.getElem?_map, List.getElem?_range hlt, Option.map_some,
    Option.some.injEq, List.any_eq_true]
  exact ⟨e, he, hd⟩

/-- `compressUnusedDims` keeps the values, at the iteration without the unused coordinates. -/
theorem compressDims_vals {m : AffineMap} (hb : ∀ e ∈ m.results, e.Below m.dims) {q r : Point}
    (hq : q.length = m.dims) (h : Vals m.results q r) :
    Vals (compressDims m).results (selectCoords q (occurring m)) r := by
  show Vals (m.results.map (AExpr.subst (renUsed m))) _ _
  have : ∀ es : List AExpr, (∀ e ∈ es, e ∈ m.results) → ∀ r, Vals es q r →
      Vals (es.map (AExpr.subst (renUsed m))) (selectCoords q (occurring m)) r := by
    intro es hes r h
    induction h with
    | nil => exact .nil
    | @cons e v es r h1 h2 ih =>
      have hm := hes e (by simp)
      refine .cons ?_ (ih (fun e he => hes e (by simp [he])))
      rw [(subst_renUsed hq (hb e hm) (occurs_of_mem hm (hb e hm))).1]
      exact h1
  exact this _ (fun _ h => h) _ h

/-- The inverse of an access built from affine expressions, as values. -/
theorem dispatch_inverse (S : Simplifier) {n : Nat} {es : List AExpr} (hb : ∀ e ∈ es, e.Below n)
    {g : AccessFn} (h : (dispatch n (es.map DimAccess.build)).inverse S = some g) :
    g.isAffine = true ∧ g.dims = n ∧ g.affineMap.results.length = n ∧ es.length = n ∧
    (∀ e ∈ g.affineMap.results, e.NoDiv) ∧
    ∀ q r, q.length = n → Vals es q r → Vals g.affineMap.results r q := by
  by_cases hn : n = 0
  · subst hn
    cases es with
    | nil =>
      simp [dispatch, AccessFn.inverse, buildAffineMap] at h
      subst h
      refine ⟨rfl, rfl, rfl, rfl, by simp [affineMap], ?_⟩
      intro q r hq hr
      rw [List.length_eq_zero_iff.1 hq]
      exact .nil
    | cons e es =>
      exfalso
      unfold dispatch at h
      simp only [beq_self_eq_true, List.isEmpty_map, List.isEmpty_cons, Bool.and_false,
        Bool.false_eq_true, if_false, bne_self_eq_false, Bool.false_and] at h
      split_ifs at h <;> simp [AccessFn.inverse] at h
  · by_cases hne : es = []
    · subst hne
      simp [dispatch, hn, AccessFn.inverse] at h
    · rcases dispatch_kind hn hne hb with ⟨cs, -, hk⟩ | ⟨hr, hk⟩ | hk
      · rw [hk] at h; simp [AccessFn.inverse] at h
      · rw [hk] at h
        have hinv : rotoInvertible ⟨n, es⟩ = true := by
          by_contra hc
          simp [AccessFn.inverse, rotoInverse, hc] at h
        obtain ⟨re, r1, r2, r3, r4⟩ := rotoInverse_vals S hr hinv
        have hg : g = buildMap S ⟨n, re⟩ := by
          simp only [AccessFn.inverse, r1, Option.some.injEq] at h
          exact h.symm
        rw [buildMap_eq] at hg
        obtain ⟨d1, d2, d3, d4, -⟩ := dispatch_affine n (re.map (S.fn n))
        have hl := ((rotoInvertible_iff hr).1 hinv).1
        simp only at r2 r4 hl
        refine ⟨by rw [hg]; exact d1, by rw [hg]; exact d3, ?_, hl.symm, ?_, ?_⟩
        · rw [hg]; simp only [d2]; simpa using r2
        · rw [hg]; simp only [d2]
          intro e he
          obtain ⟨e0, he0, rfl⟩ := List.mem_map.1 he
          exact S.noDiv _ _ (r3 e0 he0)
        · intro q r hq hv
          rw [hg]; simp only [d2]
          have := hv.length_eq
          exact vals_simp S (by omega) (r4 q r hq hv)
      · rw [hk] at h; simp [AccessFn.inverse] at h

theorem materialize_noDiv {p : Point} {e : AExpr} (h : e.NoDiv) : materialize p e = e.eval p := by
  induction e with
  | const v => rfl
  | dim d => rfl
  | add a b iha ihb => simp [materialize, AExpr.eval, iha h.1, ihb h.2]
  | mul a b iha ihb => simp [materialize, AExpr.eval, iha h.1, ihb h.2]
  | floorDiv a b => exact absurd h (by simp [AExpr.NoDiv])

theorem mapM_materialize {p : Point} {es : List AExpr} (h : ∀ e ∈ es, e.NoDiv) :
    es.mapM (materialize p) = es.mapM fun e => e.eval p := by
  induction es with
  | nil => rfl
  | cons e es ih =>
    rw [List.mapM_cons, List.mapM_cons, ih (fun e he => h e (by simp [he])),
      materialize_noDiv (h e (by simp))]

theorem plain_exprs {n : Nat} {as : List DimAccess} (h : PlainAccess n as) :
    ∃ es, Exprs as es ∧ (∀ e ∈ es, e.NoDiv ∧ e.Below n) ∧
      ∀ p r, Reaches as p r ↔ Vals es p r := by
  induction as with
  | nil =>
    refine ⟨[], .nil, by simp, fun p r => ?_⟩
    constructor <;> (intro h; cases h; exact .nil)
  | cons a as ih =>
    obtain ⟨es, h1, h2, h3⟩ := ih (fun b hb => h b (by simp [hb]))
    obtain ⟨e, e1, e2, e3⟩ := h a (by simp)
    refine ⟨e :: es, .cons e1 h1, ?_, fun p r => ?_⟩
    · intro x hx
      rcases List.mem_cons.1 hx with rfl | hx
      · exact ⟨e2, e3⟩
      · exact h2 x hx
    · constructor
      · intro h
        cases h with
        | cons h4 h5 =>
          obtain ⟨e', h6, h7⟩ := h4
          rw [e1] at h6
          rw [← Option.some.inj h6] at h7
          exact .cons h7 ((h3 _ _).1 h5)
      · intro h
        cases h with
        | cons h4 h5 => exact .cons ⟨e, e1, h4⟩ ((h3 _ _).2 h5)

/-- The accesses of an equation, as values. -/
theorem build_plain (S : Simplifier) (hS : Tidy S) {n : Nat} {as : List DimAccess}
    (h : PlainAccess n as) : ∃ es, AccessFn.build S n as = dispatch n (es.map DimAccess.build) ∧
      es.length = as.length ∧ (∀ e ∈ es, e.NoDiv ∧ e.Below n) ∧
      ∀ p r, n ≤ p.length → Reaches as p r → Vals es p r := by
  obtain ⟨es, h1, h2, h3⟩ := plain_exprs h
  refine ⟨_, build_affine S n h1, ?_, ?_, ?_⟩
  · simp [h1.length_eq]
  · intro e he
    simp only [List.mem_map] at he
    obtain ⟨_, ⟨e0, he0, rfl⟩, rfl⟩ := he
    exact ⟨S.noDiv _ _ (S.noDiv _ _ (h2 e0 he0).1), hS.below _ _ _ (hS.below _ _ _ (h2 e0 he0).2)⟩
  · intro p r hp hr
    exact vals_simp S hp (vals_simp S hp ((h3 p r).1 hr))

end Marco.Props
