import Verif.Spec.IdaJacobian
import Verif.Props.C48_Derivative
import Verif.Lemmas.FunctionDerivative

/-!
# Lemmas on the Jacobian functions
-/

namespace Marco.IdaJac
open Marco Spec Derivatives Expr Filter Topology Marco.Spec.IdaJac
open Marco.Spec.FnDer (Uses)

/-- Three valuations that are the same on `U`; what an expression is in them. -/
structure Three (U : Nat → Prop) (u0 u1 u2 : Nat → ℝ) : Prop where
  one : ∀ n, U n → u1 n = u0 n
  two : ∀ n, U n → u2 n = u0 n

/-- The first value is a combination of the others. -/
def Lin (u0 u1 u2 : Nat → ℝ) (τ α : ℝ) (e : Expr) : Prop :=
  ∀ d0 d1 d2, ev u0 τ e = some d0 → ev u1 τ e = some d1 → ev u2 τ e = some d2 → d0 = d1 + α * d2

section
variable {U : Nat → Prop} {u0 u1 u2 : Nat → ℝ} {τ α : ℝ}

theorem lin_zero : Lin u0 u1 u2 τ α (.const 0) := by
  intro d0 d1 d2 h0 h1 h2
  simp only [ev, Option.some.injEq] at h0 h1 h2
  subst h0; subst h1; subst h2
  simp

theorem lin_neg {a : Expr} (ha : Lin u0 u1 u2 τ α a) : Lin u0 u1 u2 τ α (.neg a) := by
  intro d0 d1 d2 h0 h1 h2
  simp only [ev, Option.map_eq_some_iff] at h0 h1 h2
  obtain ⟨a0, h0, rfl⟩ := h0
  obtain ⟨a1, h1, rfl⟩ := h1
  obtain ⟨a2, h2, rfl⟩ := h2
  rw [ha _ _ _ h0 h1 h2]
  ring

theorem lin_add {ew : Bool} {a b : Expr} (ha : Lin u0 u1 u2 τ α a) (hb : Lin u0 u1 u2 τ α b) :
    Lin u0 u1 u2 τ α (.add ew a b) := by
  intro d0 d1 d2 h0 h1 h2
  simp only [ev, Option.bind_eq_some_iff, Option.some.injEq] at h0 h1 h2
  obtain ⟨a0, h0, b0, g0, rfl⟩ := h0
  obtain ⟨a1, h1, b1, g1, rfl⟩ := h1
  obtain ⟨a2, h2, b2, g2, rfl⟩ := h2
  rw [ha _ _ _ h0 h1 h2, hb _ _ _ g0 g1 g2]
  ring

theorem lin_sub {ew : Bool} {a b : Expr} (ha : Lin u0 u1 u2 τ α a) (hb : Lin u0 u1 u2 τ α b) :
    Lin u0 u1 u2 τ α (.sub ew a b) := by
  intro d0 d1 d2 h0 h1 h2
  simp only [ev, Option.bind_eq_some_iff, Option.some.injEq] at h0 h1 h2
  obtain ⟨a0, h0, b0, g0, rfl⟩ := h0
  obtain ⟨a1, h1, b1, g1, rfl⟩ := h1
  obtain ⟨a2, h2, b2, g2, rfl⟩ := h2
  rw [ha _ _ _ h0 h1 h2, hb _ _ _ g0 g1 g2]
  ring

theorem three_ev (h : Three U u0 u1 u2) {g : Expr} (hg : Uses U g) : ev u1 τ g = ev u0 τ g ∧ ev u2 τ g = ev u0 τ g :=
  ⟨(FnDer.uses_congr τ h.one g hg).1, (FnDer.uses_congr τ h.two g hg).1⟩

theorem lin_mul {ew : Bool} {a g : Expr} (h : Three U u0 u1 u2) (ha : Lin u0 u1 u2 τ α a) (hg : Uses U g) :
    Lin u0 u1 u2 τ α (.mul ew a g) := by
  intro d0 d1 d2 h0 h1 h2
  simp only [ev, Option.bind_eq_some_iff, Option.some.injEq, (three_ev h hg).1, (three_ev h hg).2] at h0 h1 h2
  obtain ⟨a0, h0, b0, g0, rfl⟩ := h0
  obtain ⟨a1, h1, b1, g1, rfl⟩ := h1
  obtain ⟨a2, h2, b2, g2, rfl⟩ := h2
  rw [g0] at g1 g2
  injection g1 with g1
  injection g2 with g2
  subst g1; subst g2
  rw [ha _ _ _ h0 h1 h2]
  ring

theorem lin_mul' {ew : Bool} {a g : Expr} (h : Three U u0 u1 u2) (hg : Uses U g) (ha : Lin u0 u1 u2 τ α a) :
    Lin u0 u1 u2 τ α (.mul ew g a) := by
  intro d0 d1 d2 h0 h1 h2
  simp only [ev, Option.bind_eq_some_iff, Option.some.injEq, (three_ev h hg).1, (three_ev h hg).2] at h0 h1 h2
  obtain ⟨b0, g0, a0, h0, rfl⟩ := h0
  obtain ⟨b1, g1, a1, h1, rfl⟩ := h1
  obtain ⟨b2, g2, a2, h2, rfl⟩ := h2
  rw [g0] at g1 g2
  injection g1 with g1
  injection g2 with g2
  subst g1; subst g2
  rw [ha _ _ _ h0 h1 h2]
  ring

theorem lin_div {ew : Bool} {a g : Expr} (h : Three U u0 u1 u2) (ha : Lin u0 u1 u2 τ α a) (hg : Uses U g) :
    Lin u0 u1 u2 τ α (.div ew a g) := by
  intro d0 d1 d2 h0 h1 h2
  simp only [ev, Option.bind_eq_some_iff, (three_ev h hg).1, (three_ev h hg).2] at h0 h1 h2
  obtain ⟨a0, h0, b0, g0, e0⟩ := h0
  obtain ⟨a1, h1, b1, g1, e1⟩ := h1
  obtain ⟨a2, h2, b2, g2, e2⟩ := h2
  rw [g0] at g1 g2
  injection g1 with g1
  injection g2 with g2
  subst g1; subst g2
  unfold divVal at e0 e1 e2
  split at e0
  · rename_i hb
    rw [if_pos hb] at e1 e2
    injection e0 with e0
    injection e1 with e1
    injection e2 with e2
    subst e0; subst e1; subst e2
    rw [ha _ _ _ h0 h1 h2]
    ring
  · cases e0

theorem collect_some {α : Type} : ∀ {n : Nat} {f : Fin n → Option α} {g : Fin n → α}, collect n f = some g →
    ∀ i, f i = some (g i)
  | 0, _, _, _, i => i.elim0
  | n + 1, f, g, h, i => by
    simp only [collect, Option.bind_eq_bind, Option.bind_eq_some_iff, Option.some.injEq] at h
    obtain ⟨a, ha, g', hg, rfl⟩ := h
    refine Fin.cases ?_ (fun j => ?_) i
    · exact ha
    · exact collect_some hg j

theorem lin_sum {n : Nat} {body : Fin n → Expr} (h : ∀ i, Lin u0 u1 u2 τ α (body i)) :
    Lin u0 u1 u2 τ α (.sum n body) := by
  intro d0 d1 d2 h0 h1 h2
  simp only [ev, Option.map_eq_some_iff] at h0 h1 h2
  obtain ⟨g0, h0, rfl⟩ := h0
  obtain ⟨g1, h1, rfl⟩ := h1
  obtain ⟨g2, h2, rfl⟩ := h2
  rw [Finset.mul_sum, ← Finset.sum_add_distrib]
  exact Finset.sum_congr rfl fun i _ => h i _ _ _ (collect_some h0 i) (collect_some h1 i) (collect_some h2 i)

/-- The derived expressions are linear in the derivatives of the variables. -/
theorem derive_linear (h : Three U u0 u1 u2) {st : State} (hT : st.dTime = 0)
    (hd : ∀ n m, U n → st.der n = some m → u0 m = u1 m + α * u2 m) (e : Expr) :
    ∀ e', Uses U e → derive st e = some e' → Lin u0 u1 u2 τ α e' := by
  induction e with
  | var n =>
    intro e' hu he
    simp only [derive] at he
    split at he
    · rename_i m hm
      injection he with he; subst he
      intro d0 d1 d2 h0 h1 h2
      simp only [ev, Option.some.injEq] at h0 h1 h2
      subst h0; subst h1; subst h2
      exact hd n m hu hm
    · split at he
      · injection he with he; subst he; exact lin_zero
      · cases he
  | time =>
    intro e' _ he
    simp only [derive, hT] at he
    injection he with he; subst he; exact lin_zero
  | const c =>
    intro e' _ he
    simp only [derive] at he
    injection he with he; subst he; exact lin_zero
  | neg a ih =>
    intro e' hu he
    simp only [derive, Option.bind_eq_bind, Option.bind_eq_some_iff, Option.some.injEq] at he
    obtain ⟨a', ha, rfl⟩ := he
    exact lin_neg (ih _ hu ha)
  | add ew a b iha ihb =>
    intro e' hu he
    simp only [derive, Option.bind_eq_bind, Option.bind_eq_some_iff, Option.some.injEq] at he
    obtain ⟨a', ha, b', hb, rfl⟩ := he
    exact lin_add (iha _ hu.1 ha) (ihb _ hu.2 hb)
  | sub ew a b iha ihb =>
    intro e' hu he
    simp only [derive, Option.bind_eq_bind, Option.bind_eq_some_iff, Option.some.injEq] at he
    obtain ⟨a', ha, b', hb, rfl⟩ := he
    exact lin_sub (iha _ hu.1 ha) (ihb _ hu.2 hb)
  | mul ew a b iha ihb =>
    intro e' hu he
    simp only [derive, Option.bind_eq_bind, Option.bind_eq_some_iff, Option.some.injEq] at he
    obtain ⟨a', ha, b', hb, rfl⟩ := he
    exact lin_add (lin_mul h (iha _ hu.1 ha) hu.2) (lin_mul' h hu.1 (ihb _ hu.2 hb))
  | div ew a b iha ihb =>
    intro e' hu he
    simp only [derive, Option.bind_eq_bind, Option.bind_eq_some_iff, Option.some.injEq] at he
    obtain ⟨a', ha, b', hb, rfl⟩ := he
    refine lin_div h (lin_sub (lin_mul h (iha _ hu.1 ha) hu.2) (lin_mul' h hu.1 (ihb _ hu.2 hb))) ?_
    split
    · exact (trivial : True)
    · exact ⟨hu.2, trivial⟩
  | pow ew a b iha ihb =>
    intro e' hu he
    cases ew with
    | false =>
      simp only [derive, Option.bind_eq_bind, Option.bind_eq_some_iff] at he
      obtain ⟨a', ha, b', hb, he⟩ := he
      have la := iha _ hu.1 ha
      have lb := ihb _ hu.2 hb
      split at he
      · injection he with he; subst he
        exact lin_mul h (lin_mul' h ⟨hu.1, trivial⟩ la) trivial
      · injection he with he; subst he
        exact lin_mul' h ⟨hu.1, hu.2, trivial⟩ (lin_add (lin_mul' h hu.2 la) (lin_mul' h ⟨hu.1, hu.1⟩ lb))
    | true =>
      simp only [derive, Option.bind_eq_bind, Option.bind_eq_some_iff, Option.some.injEq] at he
      obtain ⟨a', ha, b', hb, rfl⟩ := he
      have la := iha _ hu.1 ha
      have lb := ihb _ hu.2 hb
      exact lin_mul' h ⟨hu.1, hu.2⟩ (lin_add (lin_mul h lb hu.1) (lin_div h (lin_mul' h hu.2 la) hu.1))
  | atan2 a b iha ihb =>
    intro e' hu he
    simp only [derive, Option.bind_eq_bind, Option.bind_eq_some_iff, Option.some.injEq] at he
    obtain ⟨a', ha, b', hb, rfl⟩ := he
    exact lin_div h (lin_sub (lin_mul h (iha _ hu.1 ha) hu.2) (lin_mul' h hu.1 (ihb _ hu.2 hb)))
      ⟨⟨hu.1, hu.1⟩, hu.2, hu.2⟩
  | fn f a ih =>
    intro e' hu he
    simp only [derive, Option.bind_eq_bind, Option.bind_eq_some_iff, Option.some.injEq] at he
    obtain ⟨a', ha, rfl⟩ := he
    have la := ih _ hu ha
    have hu : Uses U a := hu
    cases f with
    | acos => exact lin_neg (lin_div h la ⟨trivial, hu, trivial⟩)
    | asin => exact lin_div h la ⟨trivial, hu, trivial⟩
    | atan => exact lin_div h la ⟨trivial, hu, trivial⟩
    | cos => exact lin_mul' h hu la
    | cosh => exact lin_mul' h hu la
    | exp => exact lin_mul' h hu la
    | log => exact lin_div h la hu
    | log10 => exact lin_div h la ⟨hu, trivial⟩
    | sin => exact lin_mul' h hu la
    | sinh => exact lin_mul' h hu la
    | sqrt => exact lin_div h (lin_div h la hu) trivial
    | tan => exact lin_div h la ⟨hu, trivial⟩
    | tanh => exact lin_div h la ⟨hu, trivial⟩
  | sum n body ih =>
    intro e' hu he
    simp only [derive, Option.map_eq_some_iff] at he
    obtain ⟨g, hg, rfl⟩ := he
    exact lin_sum fun i => ih i _ (hu i) (collect_some hg i)
  | malformed a => intro e' _ he; simp [derive] at he
  | other => intro e' _ he; simp [derive] at he

end

theorem pos_some {m : Model} {q : Eqn} {v p : Nat} (h : pos m q v = some p) : (indeps m q)[p]? = some v := by
  unfold pos at h
  obtain ⟨hp, hv, -⟩ := List.findIdx?_eq_some_iff_getElem.1 h
  rw [List.getElem?_eq_getElem hp]
  congr 1
  simpa using hv

theorem pos_inj {m : Model} {q : Eqn} {v w p : Nat} (hv : pos m q v = some p) (hw : pos m q w = some p) : v = w := by
  have h1 := pos_some hv
  rw [pos_some hw] at h1
  injection h1 with h1
  exact h1.symm

theorem pos_indep {m : Model} {q : Eqn} {v p : Nat} (h : pos m q v = some p) : indep m q v = true :=
  (List.mem_filter.1 (List.mem_of_getElem? (pos_some h))).2

theorem pos_of_indep {m : Model} {q : Eqn} {v : Nat} (hl : v < m.vars.length) (h : indep m q v = true) :
    ∃ p, pos m q v = some p := by
  refine Option.isSome_iff_exists.1 ?_
  unfold pos
  rw [List.findIdx?_isSome, List.any_eq_true]
  exact ⟨v, List.mem_filter.2 ⟨List.mem_range.2 hl, h⟩, by simp⟩

theorem accessed_of_mem {q : Eqn} {v k : Nat} (h : .elem v k ∈ q.acc) : q.accessed v = true :=
  List.any_eq_true.2 ⟨_, h, by simp⟩

theorem indep_of_accessed {m : Model} {q : Eqn} {v : Nat} (h : q.accessed v = true) (hr : m.readOnly v = false) :
    indep m q v = true := by
  simp [indep, h, hr]

theorem not_indep {m : Model} (hc : Consistent m) {q : Eqn} {v : Nat} (hr : m.readOnly v = true) :
    indep m q v = false := by
  have h1 : m.der v = none := by
    cases h : m.der v with
    | none => rfl
    | some d => have := (hc.2 v d h).2.2.2.1; rw [hr] at this; cases this
  have h2 : m.derived v = none := by
    cases h : m.derived v with
    | none => rfl
    | some d => have := (hc.2 d v ((hc.1 d v).2 h)).2.2.2.2; rw [hr] at this; cases this
  simp [indep, h1, h2, hr]

/-- What the accesses read. -/
inductive Reads (m : Model) (q : Eqn) : Leaf → Src → Prop
  | ind (i) : Reads m q (.ind i) (.ind i)
  | indep (v k) : indep m q v = true → Reads m q (.elem v k) (.indep v k)
  | model (v k) : indep m q v = false → m.readOnly v = true → Reads m q (.elem v k) (.model v k)

theorem source_spec {m : Model} {q : Eqn} (hc : Consistent m) (hw : Spec.IdaJac.WellFormed m q) (hn : NoCapture m q) {a : Leaf}
    (ha : a ∈ q.acc) : Reads m q a (source m q a) := by
  cases a with
  | ind i => exact .ind i
  | elem v k =>
    simp only [source]
    cases hr : m.readOnly v with
    | false =>
      have := indep_of_accessed (accessed_of_mem ha) hr
      rw [if_pos this]
      exact .indep v k this
    | true =>
      have hi := not_indep hc (q := q) hr
      rw [if_neg (by simp [hi])]
      have hv := hw.2.2.1 v k ha
      have hx : m.vars[v]? = some m.vars[v] := List.getElem?_eq_getElem hv
      have hro : (m.vars[v]).readOnly = true := by
        unfold Model.readOnly at hr
        rw [hx] at hr
        exact hr
      obtain ⟨n1, n2⟩ := hn v k _ ha hx hro
      rw [hx]
      dsimp only
      have : (inductions m q).findIdx? (fun y => decide (y = (m.vars[v]).name)) = none := by
        rw [List.findIdx?_eq_none_iff]
        intro y hy
        simp only [decide_eq_false_iff_not]
        rintro rfl
        exact n1 hy
      rw [this]
      dsimp only
      rw [if_neg n2]
      exact .model v k hi hr

theorem uses_residual {m : Model} {q : Eqn} (hw : Spec.IdaJac.WellFormed m q) : Uses (· < q.acc.length) (residual q) :=
  ⟨hw.2.1, hw.1⟩

theorem ev_residual (q : Eqn) (x : Mem) (t : ℝ) : ev (env x q) t (residual q) = F q x t := by
  simp only [residual, ev, F]
  congr 1
  funext r
  cases ev (env x q) t q.lhs <;> rfl

theorem callEnv_low {m : Model} {q : Eqn} (hc : Consistent m) (hw : Spec.IdaJac.WellFormed m q) (hn : NoCapture m q) (x : Mem)
    (junk junk' : ℝ) (s : Seeds) {n : Nat} (h : n < q.acc.length) : callEnv m q x junk junk' s n = env x q n := by
  unfold callEnv env
  rw [if_pos h, List.getElem?_eq_getElem h]
  dsimp only
  have := source_spec hc hw hn (List.getElem_mem h)
  generalize q.acc[n] = a at this
  generalize source m q a = b at this
  cases this <;> rfl

theorem callEnv_junk {m : Model} {q : Eqn} (hc : Consistent m) (hw : Spec.IdaJac.WellFormed m q) (hn : NoCapture m q) (x : Mem)
    (junk junk' : ℝ) (s : Seeds) : callEnv m q x junk junk' s = callEnv m q x 0 0 s := by
  funext n
  by_cases h : n < q.acc.length
  · rw [callEnv_low hc hw hn _ _ _ _ h, callEnv_low hc hw hn _ _ _ _ h]
  · unfold callEnv
    rw [if_neg h, if_neg h]
    cases ha : q.acc[n - q.acc.length]? with
    | none => rfl
    | some a =>
      dsimp only
      have := source_spec hc hw hn (List.mem_of_getElem? ha)
      generalize source m q a = b at this
      cases this <;> rfl

/-- The seed of an element. -/
def elemSeed (m : Model) (q : Eqn) (s : Seeds) (v k : Nat) : ℝ := match pos m q v with
  | some p => s p k
  | none => 0

/-- A call of the template function gives the derivative along a curve whose derivatives are the seeds. -/
theorem call_spec {m : Model} {q : Eqn} (hc : Consistent m) (hw : Spec.IdaJac.WellFormed m q) (hn : NoCapture m q) {e' : Expr}
    (he : template m q = some e') (X : ℝ → Mem) (t0 τ : ℝ) (S : Seeds)
    (hX : ∀ v k, .elem v k ∈ q.acc → HasDerivAt (fun s => X s v k) (elemSeed m q S v k) t0)
    (hs : Smooth (env (X t0) q) τ (residual q)) (hsup : Props.Supported (env (X t0) q) τ (residual q)) :
    ∃ d, (∃ f : ℝ → ℝ, (∀ᶠ s in 𝓝 t0, F q (X s) τ = some (f s)) ∧ HasDerivAt f d t0) ∧
      ev (callEnv m q (X t0) 0 0 S) τ e' = some d := by
  let V : ℝ → Nat → ℝ := fun s n => if n < q.acc.length then env (X s) q n else callEnv m q (X t0) 0 0 S n
  have hV0 : V t0 = callEnv m q (X t0) 0 0 S := by
    funext n
    by_cases h : n < q.acc.length
    · simp only [V, if_pos h]
      exact (callEnv_low hc hw hn _ _ _ _ h).symm
    · simp only [V, if_neg h]
  have hVs : ∀ s, ∀ n, n < q.acc.length → V s n = env (X s) q n := fun s n h => by simp only [V, if_pos h]
  have hu := uses_residual hw
  have hder : DerivativesAt (state m q) V (fun _ => τ) t0 := by
    refine ⟨?_, ?_, ?_⟩
    · simpa [state] using hasDerivAt_const t0 τ
    · intro n k h
      simp only [state] at h
      cases ha : q.acc[n]? with
      | none => rw [ha] at h; cases h
      | some a =>
        rw [ha] at h
        dsimp only at h
        have hlt := (List.getElem?_eq_some_iff.1 ha).1
        have hmem := List.mem_of_getElem? ha
        have hr := source_spec hc hw hn hmem
        have hkn : k = q.acc.length + n := by
          split at h
          · cases h
          · injection h with h; exact h.symm
        subst hkn
        have hv1 : (fun s => V s n) = fun s => leafVal (X s) q.inds a := by
          funext s
          rw [hVs s n hlt]
          unfold env
          rw [ha]
        have hv2 : V t0 (q.acc.length + n) = srcSeed m q S 0 (source m q a) := by
          rw [hV0]
          unfold callEnv
          rw [if_neg (by omega), Nat.add_sub_cancel_left, ha]
        rw [hv1, hv2]
        generalize source m q a = b at hr h
        cases hr with
        | ind i => exact hasDerivAt_const _ _
        | indep v k' hi => exact hX v k' hmem
        | model v k' _ _ => cases h
    · intro n h
      by_cases hlt : n < q.acc.length
      · have ha : q.acc[n]? = some q.acc[n] := List.getElem?_eq_getElem hlt
        have hmem := List.mem_of_getElem? ha
        have hr := source_spec hc hw hn hmem
        simp only [state] at h
        rw [ha] at h
        dsimp only at h
        have hv1 : (fun s => V s n) = fun s => leafVal (X s) q.inds q.acc[n] := by
          funext s
          rw [hVs s n hlt]
          unfold env
          rw [ha]
        rw [hv1]
        generalize q.acc[n] = a at *
        generalize source m q a = b at hr h
        cases hr with
        | ind i => cases h
        | indep v k' hi => cases h
        | model v k' hi _ =>
          have := hX v k' hmem
          have hp : elemSeed m q S v k' = 0 := by
            unfold elemSeed
            cases hp : pos m q v with
            | none => rfl
            | some p => rw [pos_indep hp] at hi; cases hi
          rw [hp] at this
          exact this
      · have : (fun s => V s n) = fun _ => callEnv m q (X t0) 0 0 S n := by
          funext s
          simp only [V, if_neg hlt]
        rw [this]
        exact hasDerivAt_const _ _
  have hcongr := FnDer.uses_congr τ (v := V t0) (w := env (X t0) q) (hVs t0) (residual q) hu
  obtain ⟨d, ⟨f, hf, hfd⟩, hd⟩ := Props.C48_derivative_partial (state m q) (residual q) e' he V (fun _ => τ) t0 hder
    (hcongr.2.1.2 hs) (hcongr.2.2.2 hsup)
  refine ⟨d, ⟨f, ?_, hfd⟩, ?_⟩
  · filter_upwards [hf] with s h
    rw [← ev_residual, ← (FnDer.uses_congr τ (v := V s) (w := env (X s) q) (hVs s) (residual q) hu).1]
    exact h
  · rw [← hV0]
    exact hd

/-- The calls are linear in the seeds. -/
theorem call_linear {m : Model} {q : Eqn} (hc : Consistent m) (hw : Spec.IdaJac.WellFormed m q) (hn : NoCapture m q) {e' : Expr}
    (he : template m q = some e') (x : Mem) (τ α : ℝ) (S0 S1 S2 : Seeds) (hS : ∀ p k, S0 p k = S1 p k + α * S2 p k)
    {d0 d1 d2 : ℝ} (h0 : ev (callEnv m q x 0 0 S0) τ e' = some d0) (h1 : ev (callEnv m q x 0 0 S1) τ e' = some d1)
    (h2 : ev (callEnv m q x 0 0 S2) τ e' = some d2) : d0 = d1 + α * d2 := by
  refine derive_linear (U := (· < q.acc.length)) ⟨?_, ?_⟩ (st := state m q) rfl ?_ (residual q) e' (uses_residual hw) he
    d0 d1 d2 h0 h1 h2
  · intro n h
    rw [callEnv_low hc hw hn _ _ _ _ h, callEnv_low hc hw hn _ _ _ _ h]
  · intro n h
    rw [callEnv_low hc hw hn _ _ _ _ h, callEnv_low hc hw hn _ _ _ _ h]
  · intro n k hlt h
    have ha : q.acc[n]? = some q.acc[n] := List.getElem?_eq_getElem hlt
    have hr := source_spec hc hw hn (List.mem_of_getElem? ha)
    simp only [state] at h
    rw [ha] at h
    dsimp only at h
    have hkn : k = q.acc.length + n := by
      split at h
      · cases h
      · injection h with h; exact h.symm
    subst hkn
    unfold callEnv
    simp only [if_neg (show ¬ q.acc.length + n < q.acc.length by omega), Nat.add_sub_cancel_left, ha]
    generalize q.acc[n] = a at *
    generalize source m q a = b at hr h
    cases hr with
    | ind i => simp [srcSeed]
    | indep v k' hi =>
      simp only [srcSeed]
      cases pos m q v with
      | none => simp
      | some p => exact hS p k'
    | model v k' _ _ => cases h

/-- The seeds are zero. -/
def zeros : Seeds := fun _ _ => 0

/-- One seed is one. -/
noncomputable def unit (o : Option Nat) (k : Nat) : Seeds := match o with
  | some p => put zeros p k 1
  | none => zeros

theorem put_self (x : Mem) (v k : Nat) : put x v k (x v k) = x := by
  funext w j
  unfold put
  split
  · rename_i h; rw [h.1, h.2]
  · rfl

/-- With one seed, the template function gives a partial derivative. -/
theorem call_unit {m : Model} {q : Eqn} (hc : Consistent m) (hw : Spec.IdaJac.WellFormed m q) (hn : NoCapture m q) {e' : Expr}
    (he : template m q = some e') (x : Mem) (τ : ℝ) (w k : Nat) (hl : w < m.vars.length) (hr : m.readOnly w = false)
    (hs : Smooth (env x q) τ (residual q)) (hsup : Props.Supported (env x q) τ (residual q)) :
    ∃ d, Partial q x τ w k d ∧ ev (callEnv m q x 0 0 (unit (pos m q w) k)) τ e' = some d := by
  have e0 := put_self x w k
  obtain ⟨d, h1, h2⟩ := call_spec hc hw hn he (put x w k) (x w k) τ (unit (pos m q w) k) (by
    intro u j hm
    by_cases h : u = w ∧ j = k
    · obtain ⟨rfl, rfl⟩ := h
      obtain ⟨p, hp⟩ := pos_of_indep hl (indep_of_accessed (accessed_of_mem hm) hr)
      have : (fun s => put x u j s u j) = id := by funext s; simp [put]
      rw [this]
      unfold elemSeed
      rw [hp]
      simpa [unit, put] using hasDerivAt_id (x u j)
    · have : (fun s => put x w k s u j) = fun _ => x u j := by funext s; simp only [put, if_neg h]
      rw [this]
      have hz : elemSeed m q (unit (pos m q w) k) u j = 0 := by
        unfold elemSeed
        cases hu : pos m q u with
        | none => rfl
        | some p' =>
          cases hw' : pos m q w with
          | none => rfl
          | some p =>
            simp only [unit, put]
            rw [if_neg]
            · rfl
            · rintro ⟨rfl, rfl⟩
              exact h ⟨pos_inj hu hw', rfl⟩
      rw [hz]
      exact hasDerivAt_const _ _) (by rw [e0]; exact hs) (by rw [e0]; exact hsup)
  rw [e0] at h2
  exact ⟨d, h1, h2⟩

/-- Calls are always defined. -/
theorem call_defined {m : Model} {q : Eqn} (hc : Consistent m) (hw : Spec.IdaJac.WellFormed m q) (hn : NoCapture m q) {e' : Expr}
    (he : template m q = some e') (x : Mem) (τ : ℝ) (S : Seeds)
    (hs : Smooth (env x q) τ (residual q)) (hsup : Props.Supported (env x q) τ (residual q)) :
    ∃ d, ev (callEnv m q x 0 0 S) τ e' = some d := by
  let X : ℝ → Mem := fun s u j => x u j + s * elemSeed m q S u j
  have e0 : X 0 = x := by funext u j; simp [X]
  obtain ⟨d, -, h⟩ := call_spec hc hw hn he X 0 τ S (by
    intro u j _
    simpa [X] using ((hasDerivAt_id (0 : ℝ)).mul_const (elemSeed m q S u j)).const_add (x u j))
    (by rw [e0]; exact hs) (by rw [e0]; exact hsup)
  rw [e0] at h
  exact ⟨d, h⟩

/-- Different numbers give different names. -/
theorem numbered_injective (name : String) {a b : Nat} (h : name ++ "_" ++ toString a = name ++ "_" ++ toString b) : a = b := by
  have h2 : (toString a).toList = (toString b).toList := by
    have h1 := congrArg String.toList h
    simp only [String.toList_append] at h1
    exact List.append_cancel_left h1
  have h3 : Nat.toDigits 10 a = Nat.toDigits 10 b := by
    rw [← Nat.toList_repr, ← Nat.toList_repr]
    exact h2
  have := congrArg (fun l => Nat.ofDigitChars 10 l 0) h3
  simpa [Nat.ofDigitChars_ten_toDigits] using this

theorem freshName_taken (used : List String) (name : String) : ∀ (fuel c : Nat), freshName used name fuel c ∈ used →
    ∀ k ≤ fuel, name ++ "_" ++ toString (c + k) ∈ used
  | 0, c, h, k, hk => by
    obtain rfl : k = 0 := by omega
    exact h
  | fuel + 1, c, h, k, hk => by
    unfold freshName at h
    split_ifs at h with hc
    · cases k with
      | zero => simpa using hc
      | succ k =>
        have := freshName_taken used name fuel (c + 1) h k (by omega)
        rwa [show c + (k + 1) = c + 1 + k by omega]
    · exact absurd (List.contains_iff_mem.2 h) hc

theorem insertName_fresh (used : List String) (name : String) : insertName used name ∉ used := by
  unfold insertName
  split_ifs with h
  · intro hm
    have hk := freshName_taken used name used.length 0 hm
    have hn : ((List.range (used.length + 1)).map fun k => name ++ "_" ++ toString k).Nodup :=
      (List.nodup_map_iff_inj_on List.nodup_range).2 fun a _ b _ hab => numbered_injective name hab
    have hsub : ((List.range (used.length + 1)).map fun k => name ++ "_" ++ toString k) ⊆ used := by
      intro x hx
      obtain ⟨k, hk', rfl⟩ := List.mem_map.1 hx
      have := hk k (by have := List.mem_range.1 hk'; omega)
      simpa using this
    have := (hn.subperm hsub).length_le
    simp at this
  · simpa using h

theorem indNames_nodup : ∀ (n i : Nat) (used : List String), used.Nodup → (used ++ indNames n i used).Nodup
  | 0, _, used, h => by simpa [indNames] using h
  | n + 1, i, used, h => by
    have h1 : (used ++ [insertName used ("ind" ++ toString i)]).Nodup := by
      rw [List.nodup_append]
      refine ⟨h, by simp, ?_⟩
      intro a ha b hb hab
      rw [List.mem_singleton] at hb
      subst hab
      subst hb
      exact insertName_fresh _ _ ha
    have := indNames_nodup n (i + 1) _ h1
    simpa [indNames] using this

theorem indepNames_nodup {m : Model} (q : Eqn) (h : (m.vars.map Var.name).Nodup) : (indepNames m q).Nodup := by
  unfold indepNames indeps
  refine List.Nodup.filterMap ?_ (List.nodup_range.filter _)
  intro a b x ha hb
  simp only [Option.mem_def, Option.map_eq_some_iff] at ha hb
  obtain ⟨u, hu, rfl⟩ := ha
  obtain ⟨w, hw, hwu⟩ := hb
  refine (List.getElem?_inj (l := m.vars.map Var.name) ?_ h).1 ?_
  · rw [List.length_map]; exact (List.getElem?_eq_some_iff.1 hu).1
  · simp [hu, hw, hwu]

end Marco.IdaJac
