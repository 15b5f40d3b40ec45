import Verif.Lemmas.IdaJacobian

/-!
# C100: the Jacobian functions for IDA

The Jacobian function of an equation and an element of a variable `v` gives `∂F/∂v + α ∂F/∂v'`, where `F` is the residual and
`v'` the derivative of `v`, with one or two calls of the differentiated residual; it leaves the seeds at zero. If a function
is not created, both derivatives are zero. False in full: a parameter called `out`, or as an induction variable, is taken for the
local variable of the same name.
-/

namespace Marco.Props
open Marco Spec Derivatives Marco.IdaJac Marco.Spec.IdaJac Filter Topology

/-- The Jacobian function, called with the seeds at zero, gives the value expected, whatever the values of the variables that are
not initialized, and leaves the seeds at zero. -/
def C100_claim (m : Model) (q : Eqn) (oneSweep : Bool) (v k : Nat) (e : Expr) (x : Mem) (t α : ℝ) : Prop :=
  ∃ d1 d2, Partial q x t v k d1 ∧ (∀ d, m.der v = some d → Partial q x t d k d2) ∧ (m.der v = none → d2 = 0) ∧
    ∀ junk junk', exec m q e x t α junk junk' (jacobian m q oneSweep v k) (fun _ _ => 0) =
      some (d1 + α * d2, fun _ _ => 0)

/-- The full claim: for all the equations the operations of which are differentiable and supported (C48). -/
def C100_full : Prop :=
  ∀ (m : Model) (q : Eqn) (oneSweep : Bool) (v k : Nat) (e : Expr) (x : Mem) (t α : ℝ), Consistent m → WellFormed m q →
    v < m.vars.length → m.readOnly v = false → template m q = some e →
    Smooth (env x q) t (residual q) → Supported (env x q) t (residual q) → C100_claim m q oneSweep v k e x t α

/-- Stores are undone. -/
theorem C100_undo (p k : Nat) (a : ℝ) : put (put zeros p k a) p k 0 = zeros := by
  funext i j
  simp only [put, zeros]
  split <;> simp

/-- Two stores are undone. -/
theorem C100_undo2 (p p' k : Nat) (a b : ℝ) : put (put (put (put zeros p k a) p' k b) p k 0) p' k 0 = zeros := by
  funext i j
  simp only [put, zeros]
  split
  · rfl
  · split
    · rfl
    · rfl

/-- Without a parameter with the name of a local variable: partial. -/
theorem C100_jacobian_partial (m : Model) (q : Eqn) (oneSweep : Bool) (v k : Nat) (e : Expr) (x : Mem) (t α : ℝ)
    (hc : Consistent m) (hw : WellFormed m q) (hn : NoCapture m q) (hv : v < m.vars.length) (hr : m.readOnly v = false)
    (he : template m q = some e) (hs : Smooth (env x q) t (residual q)) (hsup : Supported (env x q) t (residual q)) :
    C100_claim m q oneSweep v k e x t α := by
  obtain ⟨d1, hd1, hcall1⟩ := call_unit hc hw hn he x t v k hv hr hs hsup
  have hcallz : ev (callEnv m q x 0 0 zeros) t e = some 0 := by
    obtain ⟨d, hd⟩ := call_defined hc hw hn he x t zeros hs hsup
    have := call_linear hc hw hn he x t 1 zeros zeros zeros (fun _ _ => by simp [zeros]) hd hd hd
    have : d = 0 := by linarith
    rw [hd, this]
  have hz : (fun _ _ => 0 : Seeds) = zeros := rfl
  cases hder : m.der v with
  | none =>
    refine ⟨d1, 0, hd1, fun d hd => (by rw [hder] at hd; cases hd), fun _ => rfl, fun junk junk' => ?_⟩
    simp only [hz, exec, callEnv_junk hc hw hn x junk junk', jacobian, hder]
    cases hp : pos m q v with
    | none =>
      rw [hp] at hcall1
      cases oneSweep <;> simp [run, hcallz, result] <;> simpa [unit, hcallz] using hcall1
    | some p =>
      rw [hp] at hcall1
      simp only [unit] at hcall1
      cases oneSweep <;> simp [run, seedVal, hcall1, result, C100_undo]
  | some d =>
    obtain ⟨hvd, -, hdl, -, hrd⟩ := hc.2 v d hder
    obtain ⟨d2, hd2, hcall2⟩ := call_unit hc hw hn he x t d k hdl hrd hs hsup
    refine ⟨d1, d2, hd1, fun d' hd' => ?_, fun h => (by rw [hder] at h; cases h), fun junk junk' => ?_⟩
    · rw [hder] at hd'
      injection hd' with hd'
      subst hd'
      exact hd2
    simp only [hz, exec, callEnv_junk hc hw hn x junk junk', jacobian, hder]
    cases hp' : pos m q d with
    | none =>
      rw [hp'] at hcall2
      have h20 : d2 = 0 := by
        simp only [unit, hcallz] at hcall2
        injection hcall2 with h
        exact h.symm
      subst h20
      cases hp : pos m q v with
      | none =>
        rw [hp] at hcall1
        cases oneSweep <;> simp [run, hcallz, result] <;> simpa [unit, hcallz] using hcall1
      | some p =>
        rw [hp] at hcall1
        simp only [unit] at hcall1
        cases oneSweep <;> simp [run, seedVal, hcall1, result, C100_undo]
    | some p' =>
      rw [hp'] at hcall2
      simp only [unit] at hcall2
      cases oneSweep with
      | false =>
        cases hp : pos m q v with
        | none =>
          rw [hp] at hcall1
          simp only [unit] at hcall1
          simp [run, seedVal, hcall1, hcall2, result, C100_undo]
        | some p =>
          rw [hp] at hcall1
          simp only [unit] at hcall1
          simp [run, seedVal, hcall1, hcall2, result, C100_undo]
      | true =>
        cases hp : pos m q v with
        | none =>
          rw [hp] at hcall1
          simp only [unit] at hcall1
          obtain ⟨d0, hd0⟩ := call_defined hc hw hn he x t (put zeros p' k α) hs hsup
          have hlin := call_linear hc hw hn he x t α (put zeros p' k α) zeros (put zeros p' k 1)
            (fun i j => by simp only [put, zeros]; split <;> simp) hd0 hcall1 hcall2
          simp [run, seedVal, hd0, result, C100_undo, hlin]
        | some p =>
          rw [hp] at hcall1
          simp only [unit] at hcall1
          have hpp : p ≠ p' := fun h => by
            subst h
            exact hvd (pos_inj hp hp')
          obtain ⟨d0, hd0⟩ := call_defined hc hw hn he x t (put (put zeros p k 1) p' k α) hs hsup
          have hlin := call_linear hc hw hn he x t α (put (put zeros p k 1) p' k α) (put zeros p k 1) (put zeros p' k 1)
            (fun i j => by
              simp only [put, zeros]
              by_cases h : i = p' ∧ j = k
              · rw [if_pos h, if_pos h, if_neg (fun h' => hpp (h'.1.symm.trans h.1))]
                ring
              · rw [if_neg h, if_neg h]
                ring) hd0 hcall1 hcall2
          simp [run, seedVal, hd0, result, C100_undo2, hlin]

/-- A function that is not created would give zero: both derivatives are zero. -/
theorem C100_created (m : Model) (q : Eqn) (reduced : Bool) (v : Nat) (h : created m q reduced v = false) (x : Mem) (t : ℝ)
    (hF : ∃ y, F q x t = some y) (k : Nat) :
    Partial q x t v k 0 ∧ ∀ d, m.der v = some d → Partial q x t d k 0 := by
  have key : ∀ w, q.accessed w = false → Partial q x t w k 0 := by
    intro w hw
    obtain ⟨y, hy⟩ := hF
    refine ⟨fun _ => y, Eventually.of_forall fun s => ?_, hasDerivAt_const _ _⟩
    have : env (put x w k s) q = env x q := by
      funext n
      unfold env
      cases ha : q.acc[n]? with
      | none => rfl
      | some a =>
        cases a with
        | ind i => rfl
        | elem u j =>
          simp only [leafVal, put]
          rw [if_neg]
          rintro ⟨rfl, rfl⟩
          have := accessed_of_mem (List.mem_of_getElem? ha)
          rw [hw] at this
          cases this
    unfold F at hy ⊢
    rw [this]
    exact hy
  simp only [created, Bool.or_eq_false_iff] at h
  obtain ⟨⟨-, h1⟩, h2⟩ := h
  refine ⟨key v h1, fun d hd => key d ?_⟩
  rw [hd] at h2
  exact h2

/-- `0 = out * x - der(x)`, `out` a parameter: x=0, der_x=1, out=2. -/
def C100_m (name : String) : Model where
  vars := [⟨"x", false⟩, ⟨"der_x", false⟩, ⟨name, true⟩]
  der := fun v => if v = 0 then some 1 else none
  derived := fun v => if v = 1 then some 0 else none

/-- The equation `der(x) = out * x`. -/
def C100_q : Eqn where
  acc := [.elem 1 0, .elem 2 0, .elem 0 0]
  inds := []
  lhs := .var 0
  rhs := .mul false (.var 1) (.var 2)

theorem C100_m_consistent (name : String) : Consistent (C100_m name) := by
  refine ⟨fun v d => ?_, fun v d h => ?_⟩
  · simp only [C100_m]
    constructor
    · intro h; split at h
      · rename_i hv; injection h with h; subst h; subst hv; rfl
      · cases h
    · intro h; split at h
      · rename_i hv; injection h with h; subst h; subst hv; rfl
      · cases h
  · simp only [C100_m] at h
    split at h
    · rename_i hv; injection h with h; subst h; subst hv
      refine ⟨by decide, by simp [C100_m], by simp [C100_m], rfl, rfl⟩
    · cases h

theorem C100_m_wellFormed (name : String) (h : (["x", "der_x", name]).Nodup) : WellFormed (C100_m name) C100_q := by
  refine ⟨show (0 : ℕ) < 3 by decide, ⟨show (1 : ℕ) < 3 by decide, show (2 : ℕ) < 3 by decide⟩, ?_, h⟩
  intro v k hm
  simp only [C100_q, List.mem_cons, Leaf.elem.injEq, List.not_mem_nil, or_false] at hm
  simp only [C100_m, List.length_cons, List.length_nil]
  omega

/-- The hypotheses hold for `der(x) = p * x`, where all the operations are supported; the value is `p - α`. -/
example : Consistent (C100_m "p") ∧ WellFormed (C100_m "p") C100_q ∧ NoCapture (C100_m "p") C100_q ∧
    (∃ e, template (C100_m "p") C100_q = some e) ∧
    (∀ x t, Smooth (env x C100_q) t (residual C100_q) ∧ Supported (env x C100_q) t (residual C100_q)) ∧
    jacobian (C100_m "p") C100_q true 0 0 =
      ⟨[.store .one 0 0, .store .alpha 1 0, .call, .store .zero 0 0, .store .zero 1 0], false⟩ ∧
    jacobian (C100_m "p") C100_q false 0 0 =
      ⟨[.store .one 0 0, .call, .store .zero 0 0, .store .one 1 0, .call, .store .zero 1 0], true⟩ := by
  refine ⟨C100_m_consistent _, C100_m_wellFormed _ (by decide), ?_, ⟨_, rfl⟩, ?_, by decide, by decide⟩
  · intro v k x hm hx hr
    have hv : v = 2 := by
      simp only [C100_q, List.mem_cons, Leaf.elem.injEq, List.not_mem_nil, or_false] at hm
      rcases hm with h | h | h
      · obtain ⟨rfl, -⟩ := h; simp [C100_m] at hx; subst hx; cases hr
      · exact h.1
      · obtain ⟨rfl, -⟩ := h; simp [C100_m] at hx; subst hx; cases hr
    subst hv
    simp only [C100_m, List.getElem?_cons_succ, List.getElem?_cons_zero, Option.some.injEq] at hx
    subst hx
    decide
  · intro x t
    exact ⟨⟨⟨trivial, trivial⟩, trivial⟩, ⟨trivial, trivial⟩, trivial⟩

/-- The function is created wherever the residual is differentiable, and its variables have different names. -/
theorem C100_template (m : Model) (q : Eqn) (x : Mem) (t : ℝ) (hw : WellFormed m q)
    (hs : Smooth (env x q) t (residual q)) :
    (∃ e, template m q = some e) ∧ (indepNames m q ++ inductions m q ++ [outName m q]).Nodup := by
  refine ⟨derive_exists rfl _ hs, ?_⟩
  rw [List.nodup_append]
  refine ⟨indNames_nodup _ _ _ (indepNames_nodup q hw.2.2.2), by simp, ?_⟩
  intro a ha b hb hab
  rw [List.mem_singleton] at hb
  subst hab
  subst hb
  exact insertName_fresh _ _ ha

/-- An induction variable is renamed, if a variable of the model has its name. -/
example : inductions (⟨[⟨"ind0", false⟩], fun _ => none, fun _ => none⟩) ⟨[.elem 0 0], [3], .var 0, .const 1⟩ = ["ind0_0"] := by
  decide +kernel

/-- In the function that is differentiated the parameter `out` is the output. -/
theorem C100_capture_false : source (C100_m "out") C100_q (.elem 2 0) = .out ∧
    template (C100_m "out") C100_q = some (.sub false
      (.add false (.mul false (.var 4) (.var 2)) (.mul false (.var 1) (.var 5))) (.var 3)) := by
  exact ⟨by decide, rfl⟩

theorem C100_full_false : ¬ C100_full := by
  intro H
  obtain ⟨d1, d2, -, -, -, h⟩ := H (C100_m "out") C100_q true 0 0 _ (fun _ _ => 0) 0 0 (C100_m_consistent _)
    (C100_m_wellFormed _ (by decide)) (by simp [C100_m]) rfl C100_capture_false.2
    ⟨⟨trivial, trivial⟩, trivial⟩ ⟨⟨trivial, trivial⟩, trivial⟩
  have hj : jacobian (C100_m "out") C100_q true 0 0 =
      ⟨[.store .one 0 0, .store .alpha 1 0, .call, .store .zero 0 0, .store .zero 1 0], false⟩ := by decide
  have s0 : source (C100_m "out") C100_q (.elem 0 0) = .indep 0 0 := by decide
  have s1 : source (C100_m "out") C100_q (.elem 1 0) = .indep 1 0 := by decide
  have s2 := C100_capture_false.1
  have p0 : pos (C100_m "out") C100_q 0 = some 0 := by decide
  have p1 : pos (C100_m "out") C100_q 1 = some 1 := by decide
  have key : ∀ junk, (exec (C100_m "out") C100_q (.sub false
      (.add false (.mul false (.var 4) (.var 2)) (.mul false (.var 1) (.var 5))) (.var 3)) (fun _ _ => 0) 0 0 junk 0
      (jacobian (C100_m "out") C100_q true 0 0) (fun _ _ => 0)).map Prod.fst = some junk := by
    intro junk
    rw [hj]
    simp [exec, run, ev, callEnv, C100_q, result]
    simp only [C100_q] at s0 s1 s2 p0 p1
    simp [s0, s1, s2, srcVal, srcSeed, p0, p1, put, seedVal]
  have k1 := key 1
  have k2 := key 2
  rw [h 1 0] at k1
  rw [h 2 0] at k2
  simp only [Option.map_some, Option.some.injEq] at k1 k2
  linarith

/-- `x` does not occur in an equation without it. -/
example : created (C100_m "p") ⟨[.elem 2 0], [], .var 0, .const 1⟩ true 0 = false := by decide

end Marco.Props
