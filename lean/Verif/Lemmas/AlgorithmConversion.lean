import Verif.Spec.AlgorithmConversion
import Verif.Lemmas.Execution
import Verif.Lemmas.PostOrder

/-! # Lemmas on the conversion of algorithms -/

namespace Marco.AlgConv
open Marco.Stmts Marco.Spec Marco.Spec.AlgConv

/-- The same values for the variables of a set. -/
def Agree (D : String → Prop) (σ σ' : Store) : Prop := ∀ x, D x → σ x = σ' x

theorem evalIr_agree {D : String → Prop} {ρ : Iters} {σ σ' : Store} {e : IrEx} (h : Agree D σ σ')
    (hD : ∀ x ∈ readIn e, D x) : evalIr ρ σ e = evalIr ρ σ' e := by
  induction e with
  | const n => rfl
  | get x => exact h x (hD x (by simp [readIn]))
  | ind x => rfl
  | op f a b iha ihb =>
    simp only [readIn, List.mem_append] at hD
    simp only [evalIr, iha fun x hx => hD x (.inl hx), ihb fun x hx => hD x (.inr hx)]

theorem Agree.assign {D : String → Prop} {σ σ' : Store} (h : Agree D σ σ') (x : String) (v : Int) :
    Agree D (assignTo σ x v) (assignTo σ' x v) := by
  intro y hy
  unfold assignTo
  split
  · rfl
  · exact h y hy

/-- The variables read by operations. -/
def codeGets : IrCode → List String
  | .st s => readBy s
  | .cell _ _ u s a => readIn u ++ (readIn s ++ readBy a)

/-- The execution depends on the variables that are read. -/
theorem irExec_agree {ρ : Iters} {c : IrCode} {σ : Store} {o : Ending} {τ : Store} (h : IrExec ρ c σ o τ)
    (D : String → Prop) (hD : ∀ x ∈ codeGets c, D x) (σ' : Store) (ha : Agree D σ σ') :
    ∃ τ', IrExec ρ c σ' o τ' ∧ Agree D τ τ' := by
  induction h generalizing σ' with
  | skip => exact ⟨_, .skip, ha⟩
  | noRegion => exact ⟨_, .noRegion, ha⟩
  | seq _ _ ih1 ih2 =>
    simp only [codeGets, readBy, List.mem_append] at hD
    obtain ⟨σ₁, h1, a1⟩ := ih1 (fun x hx => hD x (.inl hx)) σ' ha
    obtain ⟨σ₂, h2, a2⟩ := ih2 (fun x hx => hD x (.inr hx)) σ₁ a1
    exact ⟨σ₂, .seq h1 h2, a2⟩
  | stop hne _ ih =>
    simp only [codeGets, readBy, List.mem_append] at hD
    obtain ⟨σ₁, h1, a1⟩ := ih (fun x hx => hD x (.inl hx)) σ' ha
    exact ⟨σ₁, .stop hne h1, a1⟩
  | @set ρ x e σ =>
    refine ⟨_, .set, ?_⟩
    rw [evalIr_agree ha hD]
    exact ha.assign _ _
  | breakOp => exact ⟨_, .breakOp, ha⟩
  | returnOp => exact ⟨_, .returnOp, ha⟩
  | ifTrue hc _ ih =>
    simp only [codeGets, readBy, List.mem_append] at hD
    obtain ⟨σ₁, h1, a1⟩ := ih (fun x hx => hD x (.inr (.inl hx))) σ' ha
    rw [evalIr_agree ha fun x hx => hD x (.inl hx)] at hc
    exact ⟨σ₁, .ifTrue hc h1, a1⟩
  | ifFalse hc _ ih =>
    simp only [codeGets, readBy, List.mem_append] at hD
    obtain ⟨σ₁, h1, a1⟩ := ih (fun x hx => hD x (.inr (.inr hx))) σ' ha
    rw [evalIr_agree ha fun x hx => hD x (.inl hx)] at hc
    exact ⟨σ₁, .ifFalse hc h1, a1⟩
  | whileEnd hc =>
    simp only [codeGets, readBy, List.mem_append] at hD
    rw [evalIr_agree ha fun x hx => hD x (.inl hx)] at hc
    exact ⟨σ', .whileEnd hc, ha⟩
  | whileNext hc _ _ ih1 ih2 =>
    have hD' := hD
    simp only [codeGets, readBy, List.mem_append] at hD
    obtain ⟨σ₁, h1, a1⟩ := ih1 (fun x hx => hD x (.inr hx)) σ' ha
    obtain ⟨σ₂, h2, a2⟩ := ih2 hD' σ₁ a1
    rw [evalIr_agree ha fun x hx => hD x (.inl hx)] at hc
    exact ⟨σ₂, .whileNext hc h1 h2, a2⟩
  | whileBrk hc _ ih =>
    simp only [codeGets, readBy, List.mem_append] at hD
    obtain ⟨σ₁, h1, a1⟩ := ih (fun x hx => hD x (.inr hx)) σ' ha
    rw [evalIr_agree ha fun x hx => hD x (.inl hx)] at hc
    exact ⟨σ₁, .whileBrk hc h1, a1⟩
  | whileRet hc _ ih =>
    simp only [codeGets, readBy, List.mem_append] at hD
    obtain ⟨σ₁, h1, a1⟩ := ih (fun x hx => hD x (.inr hx)) σ' ha
    rw [evalIr_agree ha fun x hx => hD x (.inl hx)] at hc
    exact ⟨σ₁, .whileRet hc h1, a1⟩
  | forOp _ ih =>
    simp only [codeGets, readBy, List.mem_append] at hD ih
    obtain ⟨σ₁, h1, a1⟩ := ih (fun x hx => hD x (.inr hx)) σ' ha
    rw [evalIr_agree ha fun x hx => hD x (.inl hx)] at h1
    exact ⟨σ₁, .forOp h1, a1⟩
  | fromEnd hc =>
    simp only [codeGets, List.mem_append] at hD
    rw [evalIr_agree ha fun x hx => hD x (.inl hx)] at hc
    exact ⟨σ', .fromEnd hc, ha⟩
  | fromNext hc _ _ ih1 ih2 =>
    have hD' := hD
    simp only [codeGets, List.mem_append] at hD
    obtain ⟨σ₁, h1, a1⟩ := ih1 (fun x hx => hD x (.inr (.inr hx))) σ' ha
    obtain ⟨σ₂, h2, a2⟩ := ih2 hD' σ₁ a1
    rw [evalIr_agree ha fun x hx => hD x (.inl hx)] at hc
    rw [evalIr_agree a1 fun x hx => hD x (.inr (.inl hx))] at h2
    exact ⟨σ₂, .fromNext hc h1 h2, a2⟩
  | fromBrk hc _ ih =>
    simp only [codeGets, List.mem_append] at hD
    obtain ⟨σ₁, h1, a1⟩ := ih (fun x hx => hD x (.inr (.inr hx))) σ' ha
    rw [evalIr_agree ha fun x hx => hD x (.inl hx)] at hc
    exact ⟨σ₁, .fromBrk hc h1, a1⟩
  | fromRet hc _ ih =>
    simp only [codeGets, List.mem_append] at hD
    obtain ⟨σ₁, h1, a1⟩ := ih (fun x hx => hD x (.inr (.inr hx))) σ' ha
    rw [evalIr_agree ha fun x hx => hD x (.inl hx)] at hc
    exact ⟨σ₁, .fromRet hc h1, a1⟩

/-- The variables assigned by operations. -/
def codeSets : IrCode → List String
  | .st s => assigned s
  | .cell _ _ _ _ a => assigned a

/-- The execution changes variables that are assigned. -/
theorem irExec_frame {ρ : Iters} {c : IrCode} {σ : Store} {o : Ending} {τ : Store} (h : IrExec ρ c σ o τ) {x : String}
    (hx : x ∉ codeSets c) : τ x = σ x := by
  induction h with
  | skip | noRegion | breakOp | returnOp | whileEnd | fromEnd => rfl
  | seq _ _ ih1 ih2 =>
    simp only [codeSets, assigned, List.mem_append, not_or] at hx
    rw [ih2 hx.2, ih1 hx.1]
  | stop _ _ ih | ifTrue _ _ ih =>
    simp only [codeSets, assigned, List.mem_append, not_or] at hx
    exact ih hx.1
  | ifFalse _ _ ih =>
    simp only [codeSets, assigned, List.mem_append, not_or] at hx
    exact ih hx.2
  | set =>
    simp only [codeSets, assigned, List.mem_singleton] at hx
    simp [assignTo, hx]
  | whileNext _ _ _ ih1 ih2 | fromNext _ _ _ ih1 ih2 => rw [ih2 hx, ih1 hx]
  | whileBrk _ _ ih | whileRet _ _ ih | fromBrk _ _ ih | fromRet _ _ ih => exact ih hx
  | forOp _ ih => exact ih hx

/-! ## The function -/

theorem exGets_eq (e : IrEx) : exGets e = readIn e := by
  induction e with
  | op f a b iha ihb => simp only [exGets, readIn, iha, ihb]
  | _ => rfl

theorem gets_eq (a : IrSt) : gets a = readBy a := by
  induction a <;> simp_all [gets, readBy, exGets_eq]

theorem sets_eq (a : IrSt) : sets a = assigned a := by
  induction a <;> simp_all [sets, assigned]

theorem getStart_some {m : Model} {x : String} {d : Start} (h : getStart m x = some d) :
    d.var = x ∧ d ∈ m.starts :=
  ⟨by simpa using List.find?_some h, List.mem_of_find?_eq_some h⟩

/-- What the conversion gives. -/
structure Converted (m : Model) (a : IrSt) (f : Fn) (eqs : List Equation) : Prop where
  body : f.body = a
  outputs : ∀ x, x ∈ f.outputs ↔ x ∈ assigned a
  inputs : ∀ x, x ∈ f.inputs ↔ x ∈ readBy a ∧ x ∉ assigned a
  nodupOut : f.outputs.Nodup
  nodupIn : f.inputs.Nodup
  defaults : f.outputs.mapM (getStart m) = some f.defaults
  equations : eqs = f.outputs.zipIdx.map fun x => ⟨x.1, f.inputs, x.2⟩

theorem convert_some {order : List String → List String} (ho : ∀ l, (order l).Perm l) {m : Model} {a : IrSt}
    {f : Fn} {eqs : List Equation} (h : convert order m a = some (f, eqs)) : Converted m a f eqs := by
  unfold convert at h
  simp only [Option.bind_eq_bind, Option.bind_eq_some_iff, Option.pure_def, Option.some.injEq,
    Prod.mk.injEq] at h
  obtain ⟨ds, hds, rfl, rfl⟩ := h
  simp only [sets_eq, gets_eq] at hds ⊢
  refine ⟨rfl, fun x => ?_, fun x => ?_, ?_, ?_, hds, rfl⟩
  · rw [(ho _).mem_iff, List.mem_dedup]
  · simp only [List.mem_filter, (ho _).mem_iff, List.mem_dedup]
    simp
  · exact (ho _).nodup_iff.2 (List.nodup_dedup _)
  · exact ((ho _).nodup_iff.2 (List.nodup_dedup _)).filter _

theorem convert_defined {order : List String → List String} (ho : ∀ l, (order l).Perm l) {m : Model} {a : IrSt} :
    (∃ r, convert order m a = some r) ↔ ∀ x ∈ assigned a, ∃ s ∈ m.starts, s.var = x := by
  constructor
  · rintro ⟨⟨f, eqs⟩, h⟩ x hx
    have hc := convert_some ho h
    obtain ⟨i, hi⟩ := List.mem_iff_getElem?.1 ((hc.outputs x).2 hx)
    obtain ⟨d, hd, -⟩ := (PostOrder.mapM_getElem? _ _ _ hc.defaults).2 i x hi
    exact ⟨d, (getStart_some hd).2, (getStart_some hd).1⟩
  · intro h
    have : ∀ x ∈ order (sets a).dedup, ∃ b, getStart m x = some b := by
      intro x hx
      obtain ⟨s, hs, rfl⟩ := h x (by rw [← sets_eq]; exact List.mem_dedup.1 ((ho _).mem_iff.1 hx))
      unfold getStart
      exact Option.isSome_iff_exists.1 (List.find?_isSome.2 ⟨s, hs, by simp⟩)
    obtain ⟨r, hr⟩ := PostOrder.mapM_defined _ _ this
    exact ⟨_, by rw [convert, hr]; rfl⟩

variable {m : Model} {a : IrSt} {f : Fn} {eqs : List Equation}

theorem Converted.default (hc : Converted m a f eqs) {i : ℕ} {x : String} (h : f.outputs[i]? = some x) :
    ∃ d, getStart m x = some d ∧ f.defaults[i]? = some d :=
  (PostOrder.mapM_getElem? _ _ _ hc.defaults).2 i x h

theorem Converted.length (hc : Converted m a f eqs) : f.defaults.length = f.outputs.length :=
  (PostOrder.mapM_getElem? _ _ _ hc.defaults).1

theorem Converted.default' (hc : Converted m a f eqs) {d : Start} (h : d ∈ f.defaults) :
    d.var ∈ f.outputs ∧ d ∈ m.starts ∧ getStart m d.var = some d := by
  obtain ⟨i, hi⟩ := List.mem_iff_getElem?.1 h
  have hlt : i < f.outputs.length := by
    rw [← hc.length]
    exact (List.getElem?_eq_some_iff.1 hi).1
  obtain ⟨d', h1, h2⟩ := hc.default (List.getElem?_eq_getElem hlt)
  obtain rfl : d' = d := Option.some.inj (h2.symm.trans hi)
  obtain ⟨h3, h4⟩ := getStart_some h1
  rw [h3]
  exact ⟨List.getElem_mem _, h4, h1⟩

theorem Converted.vars (hc : Converted m a f eqs) : f.defaults.map (·.var) = f.outputs := by
  refine List.ext_getElem? fun i => ?_
  rw [List.getElem?_map]
  match hi : f.outputs[i]? with
  | some x =>
    obtain ⟨d, h1, h2⟩ := hc.default hi
    rw [h2, ← (getStart_some h1).1]
    rfl
  | none =>
    have : f.defaults[i]? = none := by
      rw [List.getElem?_eq_none_iff, hc.length]
      exact List.getElem?_eq_none_iff.1 hi
    rw [this]
    rfl

/-- The output variables have their default values. -/
theorem Converted.outputs_eq (hc : Converted m a f eqs) (σ₀ : Store) (g : Start → Int) :
    f.outputs.map σ₀ = f.defaults.map g ↔
      ∀ x ∈ assigned a, ∃ d, getStart m x = some d ∧ σ₀ x = g d := by
  constructor
  · intro h x hx
    obtain ⟨i, hi⟩ := List.mem_iff_getElem?.1 ((hc.outputs x).2 hx)
    obtain ⟨d, h1, h2⟩ := hc.default hi
    refine ⟨d, h1, ?_⟩
    have := congrArg (fun l => l[i]?) h
    simpa [List.getElem?_map, hi, h2] using this
  · intro h
    refine List.ext_getElem? fun i => ?_
    rw [List.getElem?_map, List.getElem?_map]
    match hi : f.outputs[i]? with
    | some x =>
      obtain ⟨d, h1, h2⟩ := hc.default hi
      obtain ⟨d', h3, h4⟩ := h x ((hc.outputs x).1 (List.mem_of_getElem? hi))
      obtain rfl : d = d' := Option.some.inj (h1.symm.trans h3)
      simp [h2, h4]
    | none =>
      have : f.defaults[i]? = none := by
        rw [List.getElem?_eq_none_iff, hc.length]
        exact List.getElem?_eq_none_iff.1 hi
      simp [this]

end Marco.AlgConv
