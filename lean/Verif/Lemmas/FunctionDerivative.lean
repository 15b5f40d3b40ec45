import Verif.Spec.FunctionDerivative
import Verif.Props.C48_Derivative
import Mathlib.Data.List.Nodup

/-! # Partial derivatives of functions: helper lemmas -/

namespace Marco.FnDer
open Marco.Derivatives Marco.Spec Marco.Spec.FnDer Marco.Props Filter Topology Expr

/-! ### Locality -/

theorem uses_congr {U : Nat → Prop} {v w : Nat → ℝ} (τ : ℝ) (h : ∀ k, U k → v k = w k) :
    ∀ e : Expr, Uses U e → ev v τ e = ev w τ e ∧ (Smooth v τ e ↔ Smooth w τ e) ∧
      (Supported v τ e ↔ Supported w τ e)
  | .var n, hu => by simp [ev, Smooth, Supported, h n hu]
  | .time, _ => by simp [ev, Smooth, Supported]
  | .const c, _ => by simp [ev, Smooth, Supported]
  | .neg a, hu => by
    obtain ⟨h1, h2, h3⟩ := uses_congr τ h a hu
    simp [ev, Smooth, Supported, h1, h2, h3]
  | .add _ a b, hu => by
    obtain ⟨h1, h2, h3⟩ := uses_congr τ h a hu.1
    obtain ⟨h4, h5, h6⟩ := uses_congr τ h b hu.2
    simp [ev, Smooth, Supported, h1, h2, h3, h4, h5, h6]
  | .sub _ a b, hu => by
    obtain ⟨h1, h2, h3⟩ := uses_congr τ h a hu.1
    obtain ⟨h4, h5, h6⟩ := uses_congr τ h b hu.2
    simp [ev, Smooth, Supported, h1, h2, h3, h4, h5, h6]
  | .mul _ a b, hu => by
    obtain ⟨h1, h2, h3⟩ := uses_congr τ h a hu.1
    obtain ⟨h4, h5, h6⟩ := uses_congr τ h b hu.2
    simp [ev, Smooth, Supported, h1, h2, h3, h4, h5, h6]
  | .div _ a b, hu => by
    obtain ⟨h1, h2, h3⟩ := uses_congr τ h a hu.1
    obtain ⟨h4, h5, h6⟩ := uses_congr τ h b hu.2
    simp [ev, Smooth, Supported, h1, h2, h3, h4, h5, h6]
  | .pow _ a b, hu => by
    obtain ⟨h1, h2, h3⟩ := uses_congr τ h a hu.1
    obtain ⟨h4, h5, h6⟩ := uses_congr τ h b hu.2
    simp [ev, Smooth, Supported, h1, h2, h3, h4, h5, h6]
  | .atan2 a b, hu => by
    obtain ⟨h1, h2, h3⟩ := uses_congr τ h a hu.1
    obtain ⟨h4, h5, h6⟩ := uses_congr τ h b hu.2
    simp [ev, Smooth, Supported, h1, h2, h3, h4, h5, h6]
  | .fn _ a, hu => by
    obtain ⟨h1, h2, h3⟩ := uses_congr τ h a hu
    simp [ev, Smooth, Supported, h1, h2, h3]
  | .sum n body, hu => by
    have := fun i => uses_congr τ h (body i) (hu i)
    refine ⟨?_, forall_congr' fun i => (this i).2.1, forall_congr' fun i => (this i).2.2⟩
    simp only [ev, fun i => (this i).1]
  | .malformed a, hu => by simp [ev, Smooth, Supported]
  | .other, _ => by simp [ev, Smooth, Supported]

theorem evCond_congr {U : Nat → Prop} {v w : Nat → ℝ} (h : ∀ k, U k → v k = w k) :
    ∀ c : Cond, UsesC U c → evCond v c = evCond w c
  | .cmp _ a b, hu => by
    simp only [evCond, (uses_congr 0 h a hu.1).1, (uses_congr 0 h b hu.2).1]
  | .not c, hu => by simp only [evCond, evCond_congr h c hu]
  | .and c d, hu => by simp only [evCond, evCond_congr h c hu.1, evCond_congr h d hu.2]
  | .or c d, hu => by simp only [evCond, evCond_congr h c hu.1, evCond_congr h d hu.2]

/-- A smooth expression can be differentiated. -/
theorem smooth_derivable {st : Expr.State} {v : Nat → ℝ} {τ : ℝ} :
    ∀ e : Expr, Uses (fun k => (st.der k).isSome) e → Smooth v τ e → ∃ e', derive st e = some e'
  | .var n, hu, _ => by
    obtain ⟨m, hm⟩ := Option.isSome_iff_exists.1 hu
    exact ⟨.var m, by simp only [derive, hm]⟩
  | .time, _, _ => ⟨_, rfl⟩
  | .const c, _, _ => ⟨_, rfl⟩
  | .neg a, hu, hs => by
    obtain ⟨a', ha⟩ := smooth_derivable a hu hs
    exact ⟨_, by simp only [derive, ha, Option.bind_eq_bind, Option.bind_some]; rfl⟩
  | .add _ a b, hu, hs => by
    obtain ⟨a', ha⟩ := smooth_derivable a hu.1 hs.1
    obtain ⟨b', hb⟩ := smooth_derivable b hu.2 hs.2
    exact ⟨_, by simp only [derive, ha, hb, Option.bind_eq_bind, Option.bind_some]; rfl⟩
  | .sub _ a b, hu, hs => by
    obtain ⟨a', ha⟩ := smooth_derivable a hu.1 hs.1
    obtain ⟨b', hb⟩ := smooth_derivable b hu.2 hs.2
    exact ⟨_, by simp only [derive, ha, hb, Option.bind_eq_bind, Option.bind_some]; rfl⟩
  | .mul _ a b, hu, hs => by
    obtain ⟨a', ha⟩ := smooth_derivable a hu.1 hs.1
    obtain ⟨b', hb⟩ := smooth_derivable b hu.2 hs.2
    exact ⟨_, by simp only [derive, ha, hb, Option.bind_eq_bind, Option.bind_some]; rfl⟩
  | .div _ a b, hu, hs => by
    obtain ⟨a', ha⟩ := smooth_derivable a hu.1 hs.1
    obtain ⟨b', hb⟩ := smooth_derivable b hu.2 hs.2.1
    exact ⟨_, by simp only [derive, ha, hb, Option.bind_eq_bind, Option.bind_some]; rfl⟩
  | .pow ew a b, hu, hs => by
    obtain ⟨a', ha⟩ := smooth_derivable a hu.1 hs.1
    obtain ⟨b', hb⟩ := smooth_derivable b hu.2 hs.2.1
    cases ew with
    | true => exact ⟨_, by simp only [derive, ha, hb, Option.bind_eq_bind, Option.bind_some]; rfl⟩
    | false =>
      simp only [derive, ha, hb, Option.bind_eq_bind, Option.bind_some]
      split <;> exact ⟨_, rfl⟩
  | .atan2 a b, hu, hs => by
    obtain ⟨a', ha⟩ := smooth_derivable a hu.1 hs.1
    obtain ⟨b', hb⟩ := smooth_derivable b hu.2 hs.2.1
    exact ⟨_, by simp only [derive, ha, hb, Option.bind_eq_bind, Option.bind_some]; rfl⟩
  | .fn _ a, hu, hs => by
    obtain ⟨a', ha⟩ := smooth_derivable a hu hs.1
    exact ⟨_, by simp only [derive, ha, Option.bind_eq_bind, Option.bind_some]; rfl⟩
  | .sum n body, hu, hs => by
    choose g hg using fun i => smooth_derivable (body i) (hu i) (hs i)
    exact ⟨_, by simp only [derive, collect_some _ _ _ hg, Option.map_some]; rfl⟩
  | .malformed _, _, hs => hs.elim
  | .other, _, hs => hs.elim

/-! ### Determinism -/

theorem run_det {s : Stmt} {m : Mem} {o : Out} {m' : Mem} (h : Run s m o m') :
    ∀ {o2 : Out} {m2 : Mem}, Run s m o2 m2 → o2 = o ∧ m2 = m' := by
  induction h with
  | skip m => intro o2 m2 h2; cases h2; exact ⟨rfl, rfl⟩
  | assign h =>
    intro o2 m2 h2
    cases h2 with | assign h' => exact ⟨rfl, Option.some.inj (h'.symm.trans h)⟩
  | seq _ _ iha ihb =>
    intro o2 m2 h2
    cases h2 with
    | seq ha hb => obtain ⟨-, rfl⟩ := iha ha; exact ihb hb
    | seqStop ha hn => exact absurd (iha ha).1 hn
  | seqStop _ hn iha =>
    intro o2 m2 h2
    cases h2 with
    | seq ha hb => exact absurd (iha ha).1.symm hn
    | seqStop ha _ => exact iha ha
  | iteT hc _ ih =>
    intro o2 m2 h2
    cases h2 with
    | iteT hc' h => exact ih h
    | iteF hc' h => rw [hc] at hc'; cases hc'
  | iteF hc _ ih =>
    intro o2 m2 h2
    cases h2 with
    | iteT hc' h => rw [hc] at hc'; cases hc'
    | iteF hc' h => exact ih h
  | whileF hc =>
    intro o2 m2 h2
    cases h2 with
    | whileF _ => exact ⟨rfl, rfl⟩
    | whileT hc' _ _ => rw [hc] at hc'; cases hc'
    | whileBrk hc' _ => rw [hc] at hc'; cases hc'
    | whileRet hc' _ => rw [hc] at hc'; cases hc'
  | whileT hc _ _ iha ihb =>
    intro o2 m2 h2
    cases h2 with
    | whileF hc' => rw [hc] at hc'; cases hc'
    | whileT _ ha hb => obtain ⟨-, rfl⟩ := iha ha; exact ihb hb
    | whileBrk _ ha => cases (iha ha).1
    | whileRet _ ha => cases (iha ha).1
  | whileBrk hc _ iha =>
    intro o2 m2 h2
    cases h2 with
    | whileF hc' => rw [hc] at hc'; cases hc'
    | whileT _ ha hb => cases (iha ha).1
    | whileBrk _ ha => exact ⟨rfl, (iha ha).2⟩
    | whileRet _ ha => cases (iha ha).1
  | whileRet hc _ iha =>
    intro o2 m2 h2
    cases h2 with
    | whileF hc' => rw [hc] at hc'; cases hc'
    | whileT _ ha hb => cases (iha ha).1
    | whileBrk _ ha => cases (iha ha).1
    | whileRet _ ha => exact ⟨rfl, (iha ha).2⟩
  | brk m => intro o2 m2 h2; cases h2; exact ⟨rfl, rfl⟩
  | ret m => intro o2 m2 h2; cases h2; exact ⟨rfl, rfl⟩

/-! ### The derived statements -/

/-- What the code needs: new variables for the derivatives. -/
structure Fresh (st : Expr.State) : Prop where
  time : st.dTime = 0
  new : ∀ {n m}, st.der n = some m → st.der m = none
  inj : ∀ {n n' m}, st.der n = some m → st.der n' = some m → n = n'

/-- The memory `D` has the values at `t` along the curve `M`, and their derivatives. -/
def Inv (st : Expr.State) (t : ℝ) (M : ℝ → Mem) (D : Mem) : Prop :=
  ∀ n m, st.der n = some m → D n = M t n ∧ HasDerivAt (fun s => M s n) (D m) t

/-- The differentiability needed by C48. -/
def Ok (m : Mem) (e : Expr) : Prop := Smooth m 0 e ∧ Supported m 0 e

section
variable {st : Expr.State} (hf : Fresh st) {t : ℝ} {M : ℝ → Mem} {D : Mem} (hi : Inv st t M D)
include hf hi

theorem expr_sim {e e' : Expr} (he : derive st e = some e')
    (hu : Uses (fun k => (st.der k).isSome) e) (hs : Ok (M t) e) :
    ∃ (F : ℝ → ℝ) (d : ℝ), (∀ᶠ s in 𝓝 t, ev (M s) 0 e = some (F s)) ∧ HasDerivAt F d t ∧
      ev D 0 e = some (F t) ∧ ev D 0 e' = some d := by
  let v : ℝ → Mem := fun s k => if (st.der k).isSome then M s k else D k
  have hv : ∀ s k, (st.der k).isSome = true → v s k = M s k := fun s k h => if_pos h
  have hvt : v t = D := by
    funext k
    by_cases h : (st.der k).isSome = true
    · obtain ⟨m, hm⟩ := Option.isSome_iff_exists.1 h
      rw [hv t k h, (hi k m hm).1]
    · exact if_neg h
  have hD : DerivativesAt st v (fun _ => 0) t := by
    refine ⟨?_, ?_, ?_⟩
    · rw [hf.time]; simpa using hasDerivAt_const t (0 : ℝ)
    · intro n m h
      have hn : (st.der n).isSome = true := by rw [h]; rfl
      simp only [hv _ n hn, hvt]
      exact (hi n m h).2
    · intro n h
      have hn : ¬ (st.der n).isSome = true := by rw [h]; simp
      simp only [v, if_neg hn]
      exact hasDerivAt_const _ _
  have hc := uses_congr 0 (hv t) e hu
  obtain ⟨d, ⟨F, hF, hFd⟩, hd⟩ := C48_derivative_partial st e e' he v (fun _ => 0) t hD
    (hc.2.1.2 hs.1) (hc.2.2.2 hs.2)
  have hFt := hF.self_of_nhds
  rw [hvt] at hFt hd
  exact ⟨F, d, hF.mono fun s h => by rw [← (uses_congr 0 (hv s) e hu).1]; exact h, hFd, hFt, hd⟩

omit hf in
theorem agree : ∀ k, (st.der k).isSome = true → D k = M t k := by
  intro k h
  obtain ⟨m, hm⟩ := Option.isSome_iff_exists.1 h
  exact (hi k m hm).1

theorem cond_sim : ∀ {c : Cond} {b : Bool}, UsesC (fun k => (st.der k).isSome) c →
    CondReg Ok (M t) c → evCond (M t) c = some b →
    (∀ᶠ s in 𝓝 t, evCond (M s) c = some b) ∧ evCond D c = some b := by
  intro c b hu hr hb
  refine ⟨?_, by rw [evCond_congr (agree hi) c hu, hb]⟩
  induction c generalizing b with
  | cmp o x y =>
    obtain ⟨hx, hy, hne⟩ := hr
    obtain ⟨x', hx'⟩ := smooth_derivable x hu.1 hx.1
    obtain ⟨y', hy'⟩ := smooth_derivable y hu.2 hy.1
    obtain ⟨F, _, hF, hFd, -, -⟩ := expr_sim hf hi hx' hu.1 hx
    obtain ⟨G, _, hG, hGd, -, -⟩ := expr_sim hf hi hy' hu.2 hy
    have hFt := hF.self_of_nhds
    have hGt := hG.self_of_nhds
    have hn := hne _ _ hFt hGt
    have key : ∀ᶠ s in 𝓝 t, (F s < G s ↔ F t < G t) ∧ (F s ≤ G s ↔ F t ≤ G t) ∧ (F s = G s ↔ F t = G t) := by
      rcases lt_or_gt_of_ne hn with h | h
      · filter_upwards [hFd.continuousAt.eventually_lt hGd.continuousAt h] with s hs
        exact ⟨iff_of_true hs h, iff_of_true hs.le h.le, iff_of_false hs.ne h.ne⟩
      · filter_upwards [hGd.continuousAt.eventually_lt hFd.continuousAt h] with s hs
        exact ⟨iff_of_false hs.not_gt h.not_gt, iff_of_false hs.not_ge h.not_ge, iff_of_false hs.ne' h.ne'⟩
    filter_upwards [hF, hG, key] with s h1 h2 h3
    simp only [evCond, h1, h2, hFt, hGt, Option.bind_some] at hb ⊢
    rw [← hb]
    cases o <;> simp only [h3.1, h3.2.1, h3.2.2]
  | not c ih =>
    simp only [evCond, Option.map_eq_some_iff] at hb
    obtain ⟨b', hb', rfl⟩ := hb
    filter_upwards [ih hu hr hb'] with s h
    simp only [evCond, h, Option.map_some]
  | and c d ihc ihd =>
    simp only [evCond, Option.bind_eq_some_iff, Option.map_eq_some_iff] at hb
    obtain ⟨x, hx, y, hy, rfl⟩ := hb
    filter_upwards [ihc hu.1 hr.1 hx, ihd hu.2 hr.2 hy] with s h1 h2
    simp only [evCond, h1, h2, Option.map_some, Option.bind_some]
  | or c d ihc ihd =>
    simp only [evCond, Option.bind_eq_some_iff, Option.map_eq_some_iff] at hb
    obtain ⟨x, hx, y, hy, rfl⟩ := hb
    filter_upwards [ihc hu.1 hr.1 hx, ihd hu.2 hr.2 hy] with s h1 h2
    simp only [evCond, h1, h2, Option.map_some, Option.bind_some]

theorem sets_sim : ∀ {l l' : List (Nat × Expr)}, deriveSets st l = some l' →
    (∀ d ∈ l, Uses (fun k => (st.der k).isSome) d.2) → (∀ d ∈ l, Ok (M t) d.2) →
    ∀ {W : ℝ → Mem} {E : Mem}, Inv st t W E →
    ∃ (W' : ℝ → Mem) (E' : Mem), (∀ᶠ s in 𝓝 t, store (M s) l (W s) = some (W' s)) ∧
      store D l' E = some E' ∧ Inv st t W' E'
  | [], l', h, _, _, W, E, hw => by
    cases h
    exact ⟨W, E, .of_forall fun s => rfl, rfl, hw⟩
  | (n, e) :: l, l', h, hu, hs, W, E, hw => by
    simp only [deriveSets, Option.bind_eq_bind, Option.bind_eq_some_iff, Option.some.injEq] at h
    obtain ⟨m, hm, e', he, l1, hl, rfl⟩ := h
    obtain ⟨F, d, hF, hFd, hv, hd⟩ := expr_sim hf hi he (hu _ List.mem_cons_self) (hs _ List.mem_cons_self)
    have hmn : m ≠ n := by
      rintro rfl
      rw [hf.new hm] at hm
      cases hm
    have hw1 : Inv st t (fun s => Function.update (W s) n (F s))
        (Function.update (Function.update E n (F t)) m d) := by
      intro n' m' h'
      by_cases hnn : n' = n
      · subst hnn
        obtain rfl : m = m' := Option.some.inj (hm.symm.trans h')
        refine ⟨by simp [Function.update_of_ne hmn.symm], ?_⟩
        simpa using hFd
      · have h1 : n' ≠ m := by
          rintro rfl
          rw [hf.new hm] at h'
          cases h'
        have h2 : m' ≠ m := by
          rintro rfl
          exact hnn (hf.inj h' hm)
        have h3 : m' ≠ n := by
          rintro rfl
          rw [hf.new h'] at hm
          cases hm
        refine ⟨?_, ?_⟩
        · simp only [Function.update_of_ne h1, Function.update_of_ne hnn]
          exact (hw n' m' h').1
        · simp only [Function.update_of_ne hnn, Function.update_of_ne h2, Function.update_of_ne h3]
          exact (hw n' m' h').2
    obtain ⟨W', E', h1, h2, h3⟩ := sets_sim hl (fun d hd => hu d (List.mem_cons_of_mem _ hd))
      (fun d hd => hs d (List.mem_cons_of_mem _ hd)) hw1
    refine ⟨W', E', ?_, ?_, h3⟩
    · filter_upwards [hF, h1] with s h4 h5
      simp only [store, h4, Option.bind_some, h5]
    · simp only [store, hv, hd, Option.bind_some, h2]

end

theorem stmt_sim {st : Expr.State} (hf : Fresh st) {t : ℝ} {a : Stmt} {m m' : Mem} {o : Out}
    (h : Reg Ok a m o m') :
    ∀ {a' : Stmt}, deriveStmt st a = some a' → UsesS (fun k => (st.der k).isSome) a →
    ∀ {M : ℝ → Mem} {D : Mem}, M t = m → Inv st t M D →
    ∃ (M' : ℝ → Mem) (D' : Mem), M' t = m' ∧ (∀ᶠ s in 𝓝 t, Run a (M s) o (M' s)) ∧
      Run a' D o D' ∧ Inv st t M' D' := by
  induction h with
  | skip m =>
    intro a' ha _ M D hm hi
    cases ha
    exact ⟨M, D, hm, .of_forall fun s => .skip _, .skip _, hi⟩
  | @assign l m m' hs he =>
    intro a' ha hu M D hm hi
    simp only [deriveStmt, Option.map_eq_some_iff] at ha
    obtain ⟨l', hl, rfl⟩ := ha
    subst hm
    obtain ⟨M', D', h1, h2, h3⟩ := sets_sim hf hi hl (fun d hd => (hu d hd).2) hs hi
    refine ⟨M', D', ?_, h1.mono fun s h => .assign h, .assign h2, h3⟩
    exact Option.some.inj (h1.self_of_nhds.symm.trans he)
  | seq _ _ iha ihb =>
    intro a' ha hu M D hm hi
    simp only [deriveStmt, Option.bind_eq_bind, Option.bind_eq_some_iff, Option.some.injEq] at ha
    obtain ⟨x, hx, y, hy, rfl⟩ := ha
    obtain ⟨M1, D1, h1, h2, h3, h4⟩ := iha hx hu.1 hm hi
    obtain ⟨M2, D2, h5, h6, h7, h8⟩ := ihb hy hu.2 h1 h4
    exact ⟨M2, D2, h5, (h2.and h6).mono fun s h => .seq h.1 h.2, .seq h3 h7, h8⟩
  | seqStop _ hn iha =>
    intro a' ha hu M D hm hi
    simp only [deriveStmt, Option.bind_eq_bind, Option.bind_eq_some_iff, Option.some.injEq] at ha
    obtain ⟨x, hx, y, hy, rfl⟩ := ha
    obtain ⟨M1, D1, h1, h2, h3, h4⟩ := iha hx hu.1 hm hi
    exact ⟨M1, D1, h1, h2.mono fun s h => .seqStop h hn, .seqStop h3 hn, h4⟩
  | iteT hr hc _ ih =>
    intro a' ha hu M D hm hi
    simp only [deriveStmt, Option.bind_eq_bind] at ha
    split at ha
    · simp only [Option.bind_eq_some_iff, Option.some.injEq] at ha
      obtain ⟨x, hx, y, hy, rfl⟩ := ha
      subst hm
      obtain ⟨M1, D1, h1, h2, h3, h4⟩ := ih hx hu.2.1 rfl hi
      obtain ⟨h5, h6⟩ := cond_sim hf hi hu.1 hr hc
      exact ⟨M1, D1, h1, (h2.and h5).mono fun s h => .iteT h.2 h.1, .iteT h6 h3, h4⟩
    · cases ha
  | iteF hr hc _ ih =>
    intro a' ha hu M D hm hi
    simp only [deriveStmt, Option.bind_eq_bind] at ha
    split at ha
    · simp only [Option.bind_eq_some_iff, Option.some.injEq] at ha
      obtain ⟨x, hx, y, hy, rfl⟩ := ha
      subst hm
      obtain ⟨M1, D1, h1, h2, h3, h4⟩ := ih hy hu.2.2 rfl hi
      obtain ⟨h5, h6⟩ := cond_sim hf hi hu.1 hr hc
      exact ⟨M1, D1, h1, (h2.and h5).mono fun s h => .iteF h.2 h.1, .iteF h6 h3, h4⟩
    · cases ha
  | whileF hr hc =>
    intro a' ha hu M D hm hi
    simp only [deriveStmt, Option.map_eq_some_iff] at ha
    obtain ⟨x, hx, rfl⟩ := ha
    subst hm
    obtain ⟨h5, h6⟩ := cond_sim hf hi hu.1 hr hc
    exact ⟨M, D, rfl, h5.mono fun s h => .whileF h, .whileF h6, hi⟩
  | whileT hr hc _ _ iha ihb =>
    intro a' ha hu M D hm hi
    have ha0 := ha
    simp only [deriveStmt, Option.map_eq_some_iff] at ha
    obtain ⟨x, hx, rfl⟩ := ha
    subst hm
    obtain ⟨h5, h6⟩ := cond_sim hf hi hu.1 hr hc
    obtain ⟨M1, D1, h1, h2, h3, h4⟩ := iha hx hu.2 rfl hi
    obtain ⟨M2, D2, h7, h8, h9, h10⟩ := ihb ha0 hu h1 h4
    refine ⟨M2, D2, h7, ?_, .whileT h6 h3 h9, h10⟩
    filter_upwards [h5, h2, h8] with s k1 k2 k3
    exact .whileT k1 k2 k3
  | whileBrk hr hc _ iha =>
    intro a' ha hu M D hm hi
    simp only [deriveStmt, Option.map_eq_some_iff] at ha
    obtain ⟨x, hx, rfl⟩ := ha
    subst hm
    obtain ⟨h5, h6⟩ := cond_sim hf hi hu.1 hr hc
    obtain ⟨M1, D1, h1, h2, h3, h4⟩ := iha hx hu.2 rfl hi
    exact ⟨M1, D1, h1, (h5.and h2).mono fun s h => .whileBrk h.1 h.2, .whileBrk h6 h3, h4⟩
  | whileRet hr hc _ iha =>
    intro a' ha hu M D hm hi
    simp only [deriveStmt, Option.map_eq_some_iff] at ha
    obtain ⟨x, hx, rfl⟩ := ha
    subst hm
    obtain ⟨h5, h6⟩ := cond_sim hf hi hu.1 hr hc
    obtain ⟨M1, D1, h1, h2, h3, h4⟩ := iha hx hu.2 rfl hi
    exact ⟨M1, D1, h1, (h5.and h2).mono fun s h => .whileRet h.1 h.2, .whileRet h6 h3, h4⟩
  | brk m =>
    intro a' ha _ M D hm hi
    cases ha
    exact ⟨M, D, hm, .of_forall fun s => .brk _, .brk _, hi⟩
  | ret m =>
    intro a' ha _ M D hm hi
    cases ha
    exact ⟨M, D, hm, .of_forall fun s => .ret _, .ret _, hi⟩

/-! ### The variables -/

theorem range_two (n : Nat) : List.range (n + n) = List.range n ++ (List.range n).map (n + ·) :=
  List.range_add

theorem positions_spec (f : Fun) (io : Io) (k : Nat) : k ∈ positions f io ↔ f.vars[k]? = some io := by
  simp only [positions, List.mem_filter, List.mem_range, decide_eq_true_eq]
  refine ⟨fun h => h.2, fun h => ⟨?_, h⟩⟩
  exact (List.getElem?_eq_some_iff.1 h).1

theorem positions_nodup (f : Fun) (io : Io) : (positions f io).Nodup :=
  List.Nodup.filter _ List.nodup_range

theorem positions_length (f : Fun) (io : Io) : (positions f io).length = f.vars.count io := by
  have h : (List.range f.vars.length).map (fun k => f.vars[k]?) = f.vars.map some := by
    apply List.ext_getElem?
    intro i
    simp only [List.getElem?_map]
    by_cases hi : i < f.vars.length
    · simp [hi]
    · simp [hi]
  have h2 := congrArg (List.countP fun x => decide (x = some io)) h
  rw [List.countP_map, List.countP_map] at h2
  rw [positions, ← List.countP_eq_length_filter]
  refine Eq.trans h2 ?_
  rw [List.count_eq_countP]
  congr 1
  funext x
  simp [Function.comp, beq_eq_decide]

theorem partialDer_some {f g : Fun} (h : partialDer f = some g) :
    g.vars = f.vars.map demote ++ f.vars ∧ g.defaults = f.defaults ∧
      deriveStmt (stateOf f.vars.length) f.body = some g.body := by
  unfold partialDer at h
  split at h
  · cases h
  · rename_i b hb
    cases h
    exact ⟨rfl, rfl, hb⟩

theorem demote_input (x : Option Io) : x.map demote = some .input ↔ x = some .input := by
  rcases x with _ | (_ | _ | _) <;> simp [demote]

theorem demote_output (x : Option Io) : ¬ x.map demote = some .output := by
  rcases x with _ | (_ | _ | _) <;> simp [demote]

theorem template_inputs {f g : Fun} (h : partialDer f = some g) :
    positions g .input = positions f .input ++ (positions f .input).map (f.vars.length + ·) := by
  obtain ⟨hv, -, -⟩ := partialDer_some h
  have hl : g.vars.length = f.vars.length + f.vars.length := by rw [hv]; simp
  rw [positions, hl, range_two, List.filter_append, List.filter_map]
  congr 1
  · rw [positions]
    apply List.filter_congr
    intro k hk
    rw [List.mem_range] at hk
    rw [hv, List.getElem?_append_left (by simpa using hk), List.getElem?_map]
    simp only [demote_input]
  · rw [positions]
    congr 1
    apply List.filter_congr
    intro k hk
    simp only [Function.comp]
    rw [hv, List.getElem?_append_right (by simp)]
    simp

theorem template_outputs {f g : Fun} (h : partialDer f = some g) :
    positions g .output = (positions f .output).map (f.vars.length + ·) := by
  obtain ⟨hv, -, -⟩ := partialDer_some h
  have hl : g.vars.length = f.vars.length + f.vars.length := by rw [hv]; simp
  rw [positions, hl, range_two, List.filter_append, List.filter_map]
  have h1 : (List.range f.vars.length).filter (fun k => decide (g.vars[k]? = some .output)) = [] := by
    rw [List.filter_eq_nil_iff]
    intro k hk
    rw [List.mem_range] at hk
    rw [hv, List.getElem?_append_left (by simpa using hk), List.getElem?_map]
    simpa using demote_output f.vars[k]?
  rw [h1, List.nil_append, positions]
  congr 1
  apply List.filter_congr
  intro k hk
  simp only [Function.comp]
  rw [hv, List.getElem?_append_right (by simp)]
  simp

theorem stateOf_some {n k m : Nat} : (stateOf n).der k = some m ↔ k < n ∧ m = n + k := by
  simp only [stateOf]
  split
  · rename_i h; simp [h, eq_comm]
  · rename_i h; simp [h]

theorem stateOf_fresh (n : Nat) : Fresh (stateOf n) where
  time := by simp [stateOf]
  new := by
    intro k m h
    obtain ⟨h1, rfl⟩ := stateOf_some.1 h
    simp [stateOf]
  inj := by
    intro k k' m h h'
    obtain ⟨h1, rfl⟩ := stateOf_some.1 h
    obtain ⟨h2, h3⟩ := stateOf_some.1 h'
    omega

theorem stateOf_isSome (n : Nat) : (fun k => ((stateOf n).der k).isSome = true) = (· < n) := by
  funext k
  simp only [stateOf]
  split
  · rename_i h; simp [h]
  · rename_i h; simp [h]

/-- All the variables of an expression that has been differentiated have a derivative. -/
theorem derive_uses {st : Expr.State} (hst : st.unknownAsConstants = false) :
    ∀ {e e' : Expr}, derive st e = some e' → Uses (fun k => (st.der k).isSome) e
  | .var n, e', h => by
    simp only [derive, hst] at h
    split at h
    · rename_i m hm; simp [Uses, hm]
    · cases h
  | .time, _, _ => trivial
  | .const c, _, _ => trivial
  | .neg a, e', h => by
    simp only [derive, Option.bind_eq_bind, Option.bind_eq_some_iff] at h
    obtain ⟨a', ha, -⟩ := h
    exact derive_uses (e := a) hst ha
  | .add _ a b, e', h => by
    simp only [derive, Option.bind_eq_bind, Option.bind_eq_some_iff] at h
    obtain ⟨a', ha, b', hb, -⟩ := h
    exact ⟨derive_uses hst ha, derive_uses hst hb⟩
  | .sub _ a b, e', h => by
    simp only [derive, Option.bind_eq_bind, Option.bind_eq_some_iff] at h
    obtain ⟨a', ha, b', hb, -⟩ := h
    exact ⟨derive_uses hst ha, derive_uses hst hb⟩
  | .mul _ a b, e', h => by
    simp only [derive, Option.bind_eq_bind, Option.bind_eq_some_iff] at h
    obtain ⟨a', ha, b', hb, -⟩ := h
    exact ⟨derive_uses hst ha, derive_uses hst hb⟩
  | .div _ a b, e', h => by
    simp only [derive, Option.bind_eq_bind, Option.bind_eq_some_iff] at h
    obtain ⟨a', ha, b', hb, -⟩ := h
    exact ⟨derive_uses hst ha, derive_uses hst hb⟩
  | .pow ew a b, e', h => by
    cases ew <;> simp only [derive, Option.bind_eq_bind, Option.bind_eq_some_iff] at h <;>
    · obtain ⟨a', ha, b', hb, -⟩ := h
      exact ⟨derive_uses hst ha, derive_uses hst hb⟩
  | .atan2 a b, e', h => by
    simp only [derive, Option.bind_eq_bind, Option.bind_eq_some_iff] at h
    obtain ⟨a', ha, b', hb, -⟩ := h
    exact ⟨derive_uses hst ha, derive_uses hst hb⟩
  | .fn _ a, e', h => by
    simp only [derive, Option.bind_eq_bind, Option.bind_eq_some_iff] at h
    obtain ⟨a', ha, -⟩ := h
    exact derive_uses (e := a) hst ha
  | .sum n body, e', h => by
    simp only [derive, Option.map_eq_some_iff] at h
    obtain ⟨g, hg, -⟩ := h
    exact fun i => derive_uses hst (collect_eq_some _ _ _ hg i)
  | .malformed _, _, h => by simp [derive] at h
  | .other, _, h => by simp [derive] at h

theorem uses_mono {U V : Nat → Prop} (h : ∀ k, U k → V k) : ∀ e : Expr, Uses U e → Uses V e
  | .var n, hu => h n hu
  | .time, _ => trivial
  | .const _, _ => trivial
  | .neg a, hu => uses_mono h a hu
  | .add _ a b, hu => ⟨uses_mono h a hu.1, uses_mono h b hu.2⟩
  | .sub _ a b, hu => ⟨uses_mono h a hu.1, uses_mono h b hu.2⟩
  | .mul _ a b, hu => ⟨uses_mono h a hu.1, uses_mono h b hu.2⟩
  | .div _ a b, hu => ⟨uses_mono h a hu.1, uses_mono h b hu.2⟩
  | .pow _ a b, hu => ⟨uses_mono h a hu.1, uses_mono h b hu.2⟩
  | .atan2 a b, hu => ⟨uses_mono h a hu.1, uses_mono h b hu.2⟩
  | .fn _ a, hu => uses_mono h a hu
  | .sum _ body, hu => fun i => uses_mono h (body i) (hu i)
  | .malformed a, hu => uses_mono h a hu
  | .other, _ => trivial

theorem usesC_mono {U V : Nat → Prop} (h : ∀ k, U k → V k) : ∀ c : Cond, UsesC U c → UsesC V c
  | .cmp _ a b, hu => ⟨uses_mono h a hu.1, uses_mono h b hu.2⟩
  | .not c, hu => usesC_mono h c hu
  | .and c d, hu => ⟨usesC_mono h c hu.1, usesC_mono h d hu.2⟩
  | .or c d, hu => ⟨usesC_mono h c hu.1, usesC_mono h d hu.2⟩

theorem deriveSets_uses {st : Expr.State} (hst : st.unknownAsConstants = false) :
    ∀ {l l' : List (Nat × Expr)}, deriveSets st l = some l' →
      ∀ d ∈ l, (st.der d.1).isSome = true ∧ Uses (fun k => (st.der k).isSome) d.2
  | [], _, _ => by simp
  | (n, e) :: l, l', h => by
    simp only [deriveSets, Option.bind_eq_bind, Option.bind_eq_some_iff] at h
    obtain ⟨m, hm, e', he, l1, hl, -⟩ := h
    intro d hd
    rcases List.mem_cons.1 hd with rfl | hd
    · exact ⟨by simp [hm], derive_uses hst he⟩
    · exact deriveSets_uses hst hl d hd

/-- The statements that can be differentiated again. -/
theorem derived_uses {st st2 : Expr.State} (hst : st2.unknownAsConstants = false)
    (hU : ∀ k, (st.der k).isSome = true → (st2.der k).isSome = true) :
    ∀ {a a' a'' : Stmt}, UsesS (fun k => (st.der k).isSome) a → deriveStmt st a = some a' →
      deriveStmt st2 a' = some a'' → UsesS (fun k => (st2.der k).isSome) a'
  | .skip, a', a'', _, h, _ => by cases h; trivial
  | .assign l, a', a'', _, h, h2 => by
    simp only [deriveStmt, Option.map_eq_some_iff] at h
    obtain ⟨l', hl, rfl⟩ := h
    simp only [deriveStmt, Option.map_eq_some_iff] at h2
    obtain ⟨l2, hl2, rfl⟩ := h2
    exact deriveSets_uses hst hl2
  | .seq a b, a', a'', hu, h, h2 => by
    simp only [deriveStmt, Option.bind_eq_bind, Option.bind_eq_some_iff, Option.some.injEq] at h
    obtain ⟨x, hx, y, hy, rfl⟩ := h
    simp only [deriveStmt, Option.bind_eq_bind, Option.bind_eq_some_iff, Option.some.injEq] at h2
    obtain ⟨x2, hx2, y2, hy2, rfl⟩ := h2
    exact ⟨derived_uses hst hU hu.1 hx hx2, derived_uses hst hU hu.2 hy hy2⟩
  | .ite c a b, a', a'', hu, h, h2 => by
    simp only [deriveStmt, Option.bind_eq_bind] at h
    split at h
    · simp only [Option.bind_eq_some_iff, Option.some.injEq] at h
      obtain ⟨x, hx, y, hy, rfl⟩ := h
      simp only [deriveStmt, Option.bind_eq_bind] at h2
      split at h2
      · simp only [Option.bind_eq_some_iff, Option.some.injEq] at h2
        obtain ⟨x2, hx2, y2, hy2, rfl⟩ := h2
        exact ⟨usesC_mono hU c hu.1, derived_uses hst hU hu.2.1 hx hx2, derived_uses hst hU hu.2.2 hy hy2⟩
      · cases h2
    · cases h
  | .whileOp c a, a', a'', hu, h, h2 => by
    simp only [deriveStmt, Option.map_eq_some_iff] at h
    obtain ⟨x, hx, rfl⟩ := h
    simp only [deriveStmt, Option.map_eq_some_iff] at h2
    obtain ⟨x2, hx2, rfl⟩ := h2
    exact ⟨usesC_mono hU c hu.1, derived_uses hst hU hu.2 hx hx2⟩
  | .brk, a', a'', _, h, _ => by cases h; trivial
  | .ret, a', a'', _, h, _ => by cases h; trivial

end Marco.FnDer
