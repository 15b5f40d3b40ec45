import Verif.Lemmas.ExternalLowering

/-! # C119: the variables of an external function hold what the call in its body has written

After the call in the body of an external function, each reference to an output or protected variable among the arguments has the
value that the external function has left there, the destination has the result, and all other variables are unchanged. -/

namespace Marco.Props
open Marco.ExtLower Marco.Spec.ExtLower

/-- The values that the external function receives. -/
def C119_received {V : Type} (P : Parts V) (σ : Nat → V) (args : List (Arg V)) : List V := args.map (argument P σ)

/-- What the variables hold after the call: for the calls in which no variable is written twice. -/
def C119_result {V : Type} (P : Parts V) (vars : Nat → Option Var) (F : List V → V × (Nat → V)) (dest : Option (Nat × List Nat))
    (args : List (Arg V)) (σ σ' : Nat → V) : Prop :=
  (∀ (k : Nat) x p, args[k]? = some (.ref x p) → changed (V := V) vars (.ref x p) = some x →
      P.sel (σ' x) p = (F (C119_received P σ args)).2 k) ∧
  (∀ x p, dest = some (x, p) → P.sel (σ' x) p = (F (C119_received P σ args)).1) ∧
  ∀ y, y ∉ args.filterMap (changed vars) → (∀ p, dest ≠ some (y, p)) → σ' y = σ y

/-- The inputs among the arguments are not written by the external function. -/
def C119_const {V : Type} (P : Parts V) (vars : Nat → Option Var) (F : List V → V × (Nat → V)) (args : List (Arg V))
    (σ : Nat → V) : Prop :=
  ∀ (k : Nat) a, args[k]? = some a → changed vars a = none → (F (C119_received P σ args)).2 k = argument P σ a

/-- No variable is written by two arguments, or by an argument and the destination; the inputs are passed at most once. -/
def C119_once {V : Type} (dest : Option (Nat × List Nat)) (args : List (Arg V)) : Prop :=
  (args.filterMap fun a => match a with | .ref x _ => some x | .expr _ => none).Nodup ∧
  ∀ x p q, dest = some (x, p) → Arg.ref x q ∉ args

/-- The full statement. -/
def C119_full : Prop :=
  ∀ (V : Type) (P : Parts V) (vars : Nat → Option Var) (F : List V → V × (Nat → V)) (dest : Option (Nat × List Nat))
    (args : List (Arg V)) (σ : Nat → V), Declared vars args → C119_once dest args → C119_const P vars F args σ →
    ∃ σ', lowerCall P vars F dest args σ = some σ' ∧ C119_result P vars F dest args σ σ'

/-- The variables that are written are among those of the references. -/
theorem C119_targets {V : Type} (P : Parts V) (vars : Nat → Option Var) (σ : Nat → V) (args : List (Arg V)) (qs : List (Passed V))
    (h : lowerArgs P vars σ args = some qs) :
    (qs.filterMap Passed.target).Sublist (args.filterMap fun a => match a with | .ref x _ => some x | .expr _ => none) := by
  induction args generalizing qs with
  | nil =>
    simp only [lowerArgs, Option.some.injEq] at h
    subst h
    exact List.Sublist.refl _
  | cons a args ih =>
    simp only [lowerArgs] at h
    split at h
    · next q qs' hq hqs =>
      simp only [Option.some.injEq] at h
      subst h
      have ih := ih qs' hqs
      cases a with
      | expr f =>
        simp only [lowerArg, Option.some.injEq] at hq
        subst hq
        exact ih
      | ref x p =>
        simp only [lowerArg] at hq
        split at hq
        · simp at hq
        · split at hq
          · simp only [Option.some.injEq] at hq
            subst hq
            exact ih.cons_cons x
          · split at hq
            · simp only [Option.some.injEq] at hq
              subst hq
              exact ih.cons_cons x
            · simp only [Option.some.injEq] at hq
              subst hq
              exact ih.cons x
    · simp at h

/-- A written variable is that of the argument at the same place. -/
theorem C119_member {V : Type} (P : Parts V) (vars : Nat → Option Var) (σ : Nat → V) (args : List (Arg V)) (qs : List (Passed V))
    (h : lowerArgs P vars σ args = some qs) (q : Passed V) (y : Nat) (hq : q ∈ qs) (ht : q.target = some y) :
    ∃ (k : Nat) (p : List Nat) (i : Var), qs[k]? = some q ∧ args[k]? = some (.ref y p) ∧ vars y = some i ∧
      ((i.input = false ∧ i.scalar = true) ∨ (p = [] ∧ q = .shared y (σ y))) := by
  obtain ⟨k, hk⟩ := List.getElem?_of_mem hq
  obtain ⟨hlen, -, hall⟩ := (lowerArgs_spec P vars σ args).2 qs h
  have hlt : k < args.length := by
    rw [← hlen]
    exact (List.getElem?_eq_some_iff.1 hk).1
  obtain ⟨q', hq', hl⟩ := hall k args[k] (List.getElem?_eq_getElem hlt)
  rw [hk, Option.some.injEq] at hq'
  subst hq'
  cases ha : args[k] with
  | expr f =>
    rw [ha] at hl
    simp only [lowerArg, Option.some.injEq] at hl
    subst hl
    simp [Passed.target] at ht
  | ref x p =>
    rw [ha] at hl
    have hak : args[k]? = some (.ref x p) := by rw [List.getElem?_eq_getElem hlt, ha]
    simp only [lowerArg] at hl
    split at hl
    · simp at hl
    · next i hi =>
      split at hl
      · next hc =>
        simp only [Option.some.injEq] at hl
        subst hl
        simp only [Passed.target, Option.some.injEq] at ht
        subst ht
        simp only [Bool.and_eq_true, Bool.not_eq_true'] at hc
        exact ⟨k, p, i, hk, hak, hi, Or.inl hc⟩
      · split at hl
        · next hc =>
          simp only [Option.some.injEq] at hl
          subst hl
          simp only [Passed.target, Option.some.injEq] at ht
          subst ht
          simp only [Bool.and_eq_true, List.isEmpty_iff] at hc
          exact ⟨k, p, i, hk, hak, hi, Or.inr ⟨hc.2, rfl⟩⟩
        · simp only [Option.some.injEq] at hl
          subst hl
          simp [Passed.target] at ht

/-- The statement holds when no argument is an element of an array that is not an input. Missing: those elements
(`C119_element`). -/
theorem C119_call_partial {V : Type} (P : Parts V) (vars : Nat → Option Var) (F : List V → V × (Nat → V))
    (dest : Option (Nat × List Nat)) (args : List (Arg V)) (σ : Nat → V) (hd : Declared vars args) (ho : C119_once dest args)
    (hc : C119_const P vars F args σ)
    (he : ∀ x p i, Arg.ref x p ∈ args → vars x = some i → i.input = false → i.scalar = false → p = []) :
    ∃ σ', lowerCall P vars F dest args σ = some σ' ∧ C119_result P vars F dest args σ σ' := by
  obtain ⟨h1, h2⟩ := lowerArgs_spec P vars σ args
  obtain ⟨qs, hqs⟩ := Option.isSome_iff_exists.1 (h1.1 hd)
  obtain ⟨hlen, hval, hall⟩ := h2 qs hqs
  have hn : (qs.filterMap Passed.target).Nodup := (C119_targets P vars σ args qs hqs).nodup ho.1
  -- the variables after the copies
  have hrec : F (qs.map Passed.val) = F (C119_received P σ args) := by rw [hval]; rfl
  generalize hr : F (C119_received P σ args) = r at hrec
  have hσ1 : ∀ (k : Nat) x p, args[k]? = some (.ref x p) → changed (V := V) vars (.ref x p) = some x →
      P.sel (copyTemps P r.2 0 qs (writeShared r.2 0 qs σ) x) p = r.2 k := by
    intro k x p hk hch
    obtain ⟨q, hqk, hl⟩ := hall k _ hk
    simp only [lowerArg] at hl
    split at hl
    · simp at hl
    · next i hi =>
      have hin : i.input = false := by
        cases hb : i.input with
        | false => rfl
        | true => simp [changed, hi, hb] at hch
      split at hl
      · simp only [Option.some.injEq] at hl
        subst hl
        rw [copyTemps_at P r.2 0 k qs _ x p _ hn hqk, P.sel_upd, Nat.zero_add]
      · next hns =>
        have hs : i.scalar = false := by simpa [hin] using hns
        have hp := he x p i (List.mem_of_getElem? hk) hi hin hs
        subst hp
        simp only [hs, Bool.not_false, List.isEmpty_nil, Bool.and_self, if_true, Option.some.injEq] at hl
        subst hl
        rw [P.sel_nil, copyTemps_other, writeShared_at r.2 0 k qs σ x _ hn hqk, Nat.zero_add]
        rintro y p u hm rfl
        obtain ⟨k', p', i', hk', ha', hi', hor⟩ := C119_member P vars σ args qs hqs _ _ hm rfl
        rw [hi, Option.some.injEq] at hi'
        subst hi'
        rcases hor with ⟨-, hs'⟩ | ⟨-, hq⟩
        · rw [hs] at hs'
          exact Bool.noConfusion hs'
        · exact Passed.noConfusion rfl (heq_of_eq hq)
  have hσ2 : ∀ y, y ∉ args.filterMap (changed vars) → copyTemps P r.2 0 qs (writeShared r.2 0 qs σ) y = σ y := by
    intro y hy
    rw [copyTemps_other]
    · by_cases hm : ∃ v, Passed.shared y v ∈ qs
      · obtain ⟨v, hm⟩ := hm
        obtain ⟨k, p, i, hk, ha, hi, hor⟩ := C119_member P vars σ args qs hqs _ _ hm rfl
        rw [writeShared_at r.2 0 k qs σ y v hn hk, Nat.zero_add]
        have hnone : changed (V := V) vars (.ref y p) = none := by
          cases hcy : changed (V := V) vars (.ref y p) with
          | none => rfl
          | some z =>
            exfalso
            apply hy
            refine List.mem_filterMap.2 ⟨_, List.mem_of_getElem? ha, ?_⟩
            rw [hcy]
            cases hb : i.input <;> simp [changed, hi, hb] at hcy
            rw [hcy]
        have hcc := hc k _ ha hnone
        rw [hr] at hcc
        rw [hcc]
        rcases hor with ⟨hin, -⟩ | ⟨hp, -⟩
        · simp [changed, hi, hin] at hnone
        · simp only [argument, hp, P.sel_nil]
      · apply writeShared_other
        rintro x v hm' rfl
        exact hm ⟨v, hm'⟩
    · rintro x p u hm rfl
      obtain ⟨k, p', i, hk, ha, hi, hor⟩ := C119_member P vars σ args qs hqs _ _ hm rfl
      rcases hor with ⟨hin, -⟩ | ⟨-, hq⟩
      · exact hy (List.mem_filterMap.2 ⟨_, List.mem_of_getElem? ha, by simp [changed, hi, hin]⟩)
      · exact Passed.noConfusion rfl (heq_of_eq hq)
  cases dest with
  | none =>
    refine ⟨copyTemps P r.2 0 qs (writeShared r.2 0 qs σ), by simp only [lowerCall, hqs, hrec], ?_, ?_, ?_⟩
    · rw [hr]
      exact hσ1
    · intro x p h
      simp at h
    · intro y hy _
      exact hσ2 y hy
  | some d =>
    obtain ⟨x, p⟩ := d
    refine ⟨assign P (copyTemps P r.2 0 qs (writeShared r.2 0 qs σ)) x p r.1, by simp only [lowerCall, hqs, hrec], ?_, ?_, ?_⟩
    · intro k z q hk hch
      have hne : z ≠ x := by
        rintro rfl
        exact ho.2 _ _ q rfl (List.mem_of_getElem? hk)
      rw [hr]
      simp only [assign, if_neg hne]
      exact hσ1 k z q hk hch
    · intro z q h
      simp only [Option.some.injEq, Prod.mk.injEq] at h
      obtain ⟨rfl, rfl⟩ := h
      rw [hr]
      simp only [assign, if_true, P.sel_upd]
    · intro y hy hnd
      have hne : y ≠ x := by
        rintro rfl
        exact hnd p rfl
      simp only [assign, if_neg hne]
      exact hσ2 y hy

/-- What the external function writes to an element of an array is lost, for all calls in which the array is in no other argument
and not the destination. -/
theorem C119_element {V : Type} (P : Parts V) (vars : Nat → Option Var) (F : List V → V × (Nat → V))
    (dest : Option (Nat × List Nat)) (args : List (Arg V)) (σ σ' : Nat → V) (x : Nat) (i : Var) (hi : vars x = some i)
    (hs : i.scalar = false) (hp : ∀ p, Arg.ref x p ∈ args → p ≠ []) (hdest : ∀ p, dest ≠ some (x, p))
    (h : lowerCall P vars F dest args σ = some σ') : σ' x = σ x := by
  cases hqs : lowerArgs P vars σ args with
  | none => simp [lowerCall, hqs] at h
  | some qs =>
    have hno : ∀ q ∈ qs, q.target ≠ some x := by
      intro q hq ht
      obtain ⟨k, p, i', -, ha, hi', hor⟩ := C119_member P vars σ args qs hqs q x hq ht
      rw [hi, Option.some.injEq] at hi'
      subst hi'
      rcases hor with ⟨-, hs'⟩ | ⟨hp', -⟩
      · rw [hs] at hs'
        exact Bool.noConfusion hs'
      · exact hp p (List.mem_of_getElem? ha) hp'
    have hb : ∀ new, copyTemps P new 0 qs (writeShared new 0 qs σ) x = σ x := by
      intro new
      rw [copyTemps_other, writeShared_other]
      · rintro y v hm rfl
        exact hno _ hm rfl
      · rintro y p v hm rfl
        exact hno _ hm rfl
    cases dest with
    | none =>
      simp only [lowerCall, hqs, Option.some.injEq] at h
      subst h
      exact hb _
    | some d =>
      obtain ⟨z, p⟩ := d
      simp only [lowerCall, hqs, Option.some.injEq] at h
      subst h
      have hne : x ≠ z := by
        rintro rfl
        exact hdest p rfl
      simp only [assign, if_neg hne]
      exact hb _

/-- An error message is given exactly when a reference is to a variable that is not declared. -/
theorem C119_declared {V : Type} (P : Parts V) (vars : Nat → Option Var) (F : List V → V × (Nat → V))
    (dest : Option (Nat × List Nat)) (args : List (Arg V)) (σ : Nat → V) :
    lowerCall P vars F dest args σ = none ↔ ¬Declared vars args := by
  rw [(lowerArgs_spec P vars σ args).1]
  cases hqs : lowerArgs P vars σ args with
  | none => simp [lowerCall, hqs]
  | some qs => cases dest <;> simp [lowerCall, hqs]

/-- The call without arguments in the source: the output has the result for the values of all the variables before and after it
that are not outputs, in the order of the declarations; all other variables are unchanged. -/
theorem C119_implicit {V : Type} (F : List V → V × (Nat → V)) (before after : List (Nat × Var)) (y : Nat) (i : Var)
    (σ : Nat → V) (hb : ∀ d ∈ before, d.2.output = false) (ha : ∀ d ∈ after, d.2.output = false) (hi : i.output = true) :
    ∃ σ', implicitCall F (before ++ (y, i) :: after) σ = some σ' ∧
      σ' y = (F ((before ++ after).map fun d => σ d.1)).1 ∧ ∀ z, z ≠ y → σ' z = σ z := by
  have h1 : ((before ++ (y, i) :: after).filter fun d => d.2.output) = [(y, i)] := by
    rw [List.filter_append, List.filter_cons_of_pos (by simpa using hi), List.filter_eq_nil_iff.2, List.filter_eq_nil_iff.2]
    · rfl
    · intro d hd
      simp [ha d hd]
    · intro d hd
      simp [hb d hd]
  have h2 : ((before ++ (y, i) :: after).filter fun d => !d.2.output) = before ++ after := by
    rw [List.filter_append, List.filter_cons_of_neg (by simp [hi]), List.filter_eq_self.2, List.filter_eq_self.2]
    · intro d hd
      simp [ha d hd]
    · intro d hd
      simp [hb d hd]
  refine ⟨_, by simp only [implicitCall, h1, h2, List.map_cons, List.map_nil]; rfl, ?_, ?_⟩
  · simp
  · intro z hz
    simp [hz]

/-- With two outputs the call without arguments is refused. -/
theorem C119_outputs {V : Type} (F : List V → V × (Nat → V)) (decls : List (Nat × Var)) (σ : Nat → V) :
    implicitCall F decls σ = none ↔ 2 ≤ (decls.filter fun d => d.2.output).length := by
  simp only [implicitCall]
  generalize (decls.filter fun d => d.2.output) = l
  cases l with
  | nil => simp
  | cons d l => cases l <;> simp

namespace C119_Sample

/-- Integers and arrays of values. -/
inductive Val where
  | int (n : Int)
  | arr (v : Nat → Val)

/-- The part at a path. -/
def Val.sel : Val → List Nat → Val
  | v, [] => v
  | .int n, _ :: _ => .int n
  | .arr v, n :: p => (v n).sel p

/-- The replacement of a part. -/
def Val.upd : Val → List Nat → Val → Val
  | _, [], x => x
  | .int _, n :: p, x => .arr fun m => if m = n then (Val.int 0).upd p x else .int 0
  | .arr v, n :: p, x => .arr fun m => if m = n then (v n).upd p x else v m

theorem sel_upd (v : Val) (p : List Nat) (x : Val) : (v.upd p x).sel p = x := by
  induction p generalizing v with
  | nil => cases v <;> simp [Val.upd, Val.sel]
  | cons n p ih => cases v <;> simp [Val.upd, Val.sel, ih]

def parts : Parts Val := ⟨Val.sel, Val.upd, fun v => by cases v <;> rfl, fun v x => by cases v <;> rfl, sel_upd⟩

/-- `input Real u; output Real y; output Real z[2]; protected Real w;`. -/
def vars : Nat → Option Var
  | 0 => some ⟨true, false, true⟩
  | 1 => some ⟨false, true, true⟩
  | 2 => some ⟨false, true, false⟩
  | 3 => some ⟨false, false, true⟩
  | _ => none

/-- All integers are zero. -/
def start : Nat → Val := fun x => if x = 2 then .arr fun _ => .int 0 else .int 0

/-- Returns 9 and writes `10 + k` to argument `k`, except to the first. -/
def F (vs : List Val) : Val × (Nat → Val) := (.int 9, fun k => if k = 0 then vs.getD 0 (.int 0) else .int (10 + k))

end C119_Sample

open C119_Sample in
/-- The hypotheses of `C119_call_partial` hold of `w = F(u, y, z)`. -/
example : Declared vars [Arg.ref (V := Val) 0 [], .ref 1 [], .ref 2 []] ∧
    C119_once (some (3, [])) [Arg.ref (V := Val) 0 [], .ref 1 [], .ref 2 []] ∧
    C119_const parts vars F [.ref 0 [], .ref 1 [], .ref 2 []] start ∧
    ∀ x p i, Arg.ref (V := Val) x p ∈ [Arg.ref 0 [], .ref 1 [], .ref 2 []] → vars x = some i → i.input = false →
      i.scalar = false → p = [] := by
  refine ⟨?_, ⟨by decide, ?_⟩, ?_, ?_⟩
  · intro x p h
    simp at h
    rcases h with ⟨rfl, rfl⟩ | ⟨rfl, rfl⟩ | ⟨rfl, rfl⟩ <;> rfl
  · intro x p q h hm
    simp at h hm
    obtain ⟨rfl, -⟩ := h
    omega
  · intro k a hk hn
    match k with
    | 0 => simp at hk; subst hk; rfl
    | 1 => simp at hk; subst hk; simp [changed, vars] at hn
    | 2 => simp at hk; subst hk; simp [changed, vars] at hn
    | k + 3 => simp at hk
  · intro x p i h
    simp at h
    intros
    rcases h with ⟨-, rfl⟩ | ⟨-, rfl⟩ | ⟨-, rfl⟩ <;> rfl

open C119_Sample in
/-- `w = F(u, y, z)`: the variables after the call. -/
example : ∃ σ', lowerCall parts vars F (some (3, [])) [.ref 0 [], .ref 1 [], .ref 2 []] start = some σ' ∧
    σ' 0 = .int 0 ∧ σ' 1 = .int 11 ∧ σ' 2 = .int 12 ∧ σ' 3 = .int 9 := ⟨_, rfl, rfl, rfl, rfl, rfl⟩

open C119_Sample in
/-- The hypotheses of `C119_element` hold of `F(u, z[1])`. -/
example : ∃ σ', lowerCall parts vars F none [.ref 0 [], .ref 2 [1]] start = some σ' ∧ vars 2 = some ⟨false, true, false⟩ ∧
    (F [.int 0, .int 0]).2 1 = .int 11 ∧ parts.sel (σ' 2) [1] = .int 0 := ⟨_, rfl, rfl, rfl, rfl⟩

open C119_Sample in
/-- Arguments that meet the hypotheses of `C119_implicit`: `u`, the output `y` and the protected `w`. -/
example : ∃ σ', implicitCall (fun vs => (.int vs.length, fun _ => .int 0))
    [(0, ⟨true, false, true⟩), (1, ⟨false, true, true⟩), (3, ⟨false, false, true⟩)] start = some σ' ∧ σ' 1 = .int 2 :=
  ⟨_, rfl, rfl⟩

open C119_Sample in
/-- The full statement is false: `F(u, z[1])` leaves `z[1]` as it was. -/
theorem C119_full_false : ¬C119_full := by
  intro h
  obtain ⟨σ', h1, h2, -⟩ := h Val parts vars F none [.ref 0 [], .ref 2 [1]] start
    (by
      intro x p hm
      simp at hm
      rcases hm with ⟨rfl, rfl⟩ | ⟨rfl, rfl⟩ <;> rfl)
    ⟨by decide, by intro x p q h; simp at h⟩
    (by
      intro k a hk hn
      match k with
      | 0 => simp at hk; subst hk; rfl
      | 1 => simp at hk; subst hk; simp [changed, vars] at hn
      | k + 2 => simp at hk)
  have hx := C119_element parts vars F none _ start σ' 2 ⟨false, true, false⟩ rfl rfl (by intro p hm; simp at hm; simp [hm])
    (by simp) h1
  have hy := h2 1 2 [1] rfl rfl
  rw [hx] at hy
  have : (Val.int 0) = .int 11 := hy
  simp at this

end Marco.Props
