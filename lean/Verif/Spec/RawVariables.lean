import Verif.Model.RawVariables

/-! # The variables of functions, with values in place of buffers -/

namespace Marco.Spec.RawVars
open Marco.RawVars

/-- The sizes that a declaration gives: numbers and values of expressions; `:` is zero until an assignment. -/
def declared : List Dim → List Nat
  | [] => []
  | .num n :: dims => (if n = -1 then 0 else n.toNat) :: declared dims
  | .expr n :: dims => n :: declared dims

/-- A value: its contents, and the variable from which it has been read, as long as that variable has not been assigned since
(`fresh`). -/
structure Val (V : Type) where
  arr : Arr V
  src : Option Nat
  fresh : Bool

/-- The variables have values, and so do the operations. -/
structure State (V : Type) where
  vars : List (Kind × Arr V)
  vals : List (Val V)

/-- The values that have been read from variable `x` are old from now on. -/
def Val.touch {V : Type} (x : Nat) (v : Val V) : Val V := if v.src = some x then { v with fresh := false } else v

/-- One operation on the values. `none`: an array gets a value of other sizes, an element is outside of its array, or something does
not exist. With `strict`, also: an array is used after the variable from which it has been read has been assigned. -/
def step {V : Type} (strict : Bool) (s : State V) : Op V → Option (State V × List (Arr V))
  | .get x => (s.vars[x]?).map fun v =>
      ({ s with vals := s.vals ++ [⟨v.2, if v.1 = .scalar then none else some x, true⟩] }, [])
  | .make a => some ({ s with vals := s.vals ++ [⟨a, none, true⟩] }, [])
  | .set x r =>
      match s.vars[x]?, s.vals[r]? with
      | some (kind, old), some v =>
        if (strict && !v.fresh) = false ∧ (kind = .pointer ∨ old.sizes = v.arr.sizes) then
          some ({ vars := s.vars.set x (kind, v.arr), vals := s.vals.map (Val.touch x) }, [])
        else none
      | _, _ => none
  | .store x k v =>
      match s.vars[x]? with
      | some (kind, a) =>
        if k < a.elems.length then
          some ({ vars := s.vars.set x (kind, { a with elems := a.elems.set k v }), vals := s.vals.map (Val.touch x) }, [])
        else none
      | none => none
  | .use r =>
      match s.vals[r]? with
      | some v => if (strict && !v.fresh) = false then some (s, [v.arr]) else none
      | none => none

/-- All the operations. -/
def run {V : Type} (strict : Bool) : State V → List (Op V) → Option (List (Arr V))
  | _, [] => some []
  | s, o :: os =>
    match step strict s o with
    | none => none
    | some (t, out) =>
      match run strict t os with
      | none => none
      | some rest => some (out ++ rest)

end Marco.Spec.RawVars
