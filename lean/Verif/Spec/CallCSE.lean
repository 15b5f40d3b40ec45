import Verif.Model.CallCSE

/-! # What the elimination of common calls has to do -/

namespace Marco.Spec.CSE
open Marco.CSE

/-- Interpretation of constants, inductions, operations, reductions and functions. Functions are
pure: their results depend on the arguments only. -/
structure Sem (V : Type) where
  const : ℤ → V
  ofInt : ℤ → V
  op : String → List V → V
  red : String → List V → (List V → V) → V
  fn : String → List V → ℕ → V

section
variable {V : Type} (S : Sem V) (σ : String → V) (κ : ℕ → ℕ → List ℤ → V) (η : ℕ → ℤ)

mutual
/-- The value of an expression: `σ` has the values of the variables, `κ` the elements of the new ones,
`η` the inductions, `β` the arguments of the enclosing reductions. -/
def eval (β : List (List V)) : Ex → V
  | .const k => S.const k
  | .get v => σ v
  | .ind i => S.ofInt (η i)
  | .bound d k => ((β[d]?).bind fun l => l[k]?).getD (S.const 0)
  | .op o as => S.op o (evalArgs β as)
  | .red a its b => S.red a (evalArgs β its) fun vs => eval (vs :: β) b
  | .call _ f r as => S.fn f (evalArgs β as) r
  | .cse n r idx => κ n r (idx.map fun x => η x.1 - x.2)

/-- For operands. -/
def evalArgs (β : List (List V)) : Args → List V
  | .nil => []
  | .cons a as => eval β a :: evalArgs β as
end
end

/-- The values of the inductions at a point of an iteration space. -/
def InSpace (η : ℕ → ℤ) (space : List Box) : Prop :=
  space = [] ∨ ∃ b ∈ space, ∀ i r, b[i]? = some r → r.b ≤ η i ∧ η i < r.e

/-- All the instances of the templates hold. -/
def Solves {V : Type} (S : Sem V) (σ : String → V) (κ : ℕ → ℕ → List ℤ → V) (ts : List Template) : Prop :=
  ∀ t ∈ ts, ∀ s ∈ t.spaces, ∀ η, InSpace η s → ∀ x ∈ t.sides,
    eval S σ κ η [] x.1 = eval S σ κ η [] x.2

mutual
/-- The expressions in an expression, itself included. -/
def subs : Ex → List Ex
  | .op o as => .op o as :: subsArgs as
  | .red a its b => .red a its b :: (subsArgs its ++ subs b)
  | .call id f r as => .call id f r as :: subsArgs as
  | e => [e]

/-- For operands. -/
def subsArgs : Args → List Ex
  | .nil => []
  | .cons a as => subs a ++ subsArgs as
end

/-- The expressions in a template. -/
def Within (t : Template) (e : Ex) : Prop := ∃ x ∈ t.sides, e ∈ subs x.1 ∨ e ∈ subs x.2

mutual
/-- Other inductions, and no numbers of calls. -/
def relabel (ρ : ℕ → ℕ) : Ex → Ex
  | .ind i => .ind (ρ i)
  | .op o as => .op o (relabelArgs ρ as)
  | .red a its b => .red a (relabelArgs ρ its) (relabel ρ b)
  | .call _ f r as => .call 0 f r (relabelArgs ρ as)
  | e => e

/-- For operands. -/
def relabelArgs (ρ : ℕ → ℕ) : Args → Args
  | .nil => .nil
  | .cons a as => .cons (relabel ρ a) (relabelArgs ρ as)
end

mutual
/-- The arguments of regions belong to an enclosing reduction. -/
def Scoped (depth : ℕ) : Ex → Prop
  | .bound d _ => d < depth
  | .op _ as => ScopedArgs depth as
  | .red _ its b => ScopedArgs depth its ∧ Scoped (depth + 1) b
  | .call _ _ _ as => ScopedArgs depth as
  | _ => True

/-- For operands. -/
def ScopedArgs (depth : ℕ) : Args → Prop
  | .nil => True
  | .cons a as => Scoped depth a ∧ ScopedArgs depth as
end

/-- There are no new variables yet, the number of a call determines it, the results exist, arguments of
regions are used in the regions, inductions are in the ranges of all the instances. -/
structure WellFormed (sig : Sig) (ts : List Template) : Prop where
  noCse : ∀ t ∈ ts, ∀ n r idx, ¬ Within t (.cse n r idx)
  ids : ∀ t ∈ ts, ∀ id f r as g q bs, Within t (.call id f r as) → Within t (.call id g q bs) →
    f = g ∧ as = bs
  results : ∀ t ∈ ts, ∀ id f r as, Within t (.call id f r as) → r < sig.results f
  inScope : ∀ t ∈ ts, ∀ x ∈ t.sides, Scoped 0 x.1 ∧ Scoped 0 x.2
  inductions : ∀ t ∈ ts, ∀ i, Within t (.ind i) → ∀ s ∈ t.spaces, s ≠ [] ∧ ∀ b ∈ s, i < b.length

/-- The point is an index of a tensor with the shape. -/
def InShape (q : List ℤ) (shape : List ℕ) : Prop :=
  List.Forall₂ (fun (x : ℤ) (n : ℕ) => 0 ≤ x ∧ x < n) q shape

/-- What the pass has to do: the solutions for the old variables stay the same, those for the new ones
are determined, and the elements that are accessed exist. -/
structure Preserves (ts : List Template) (res : Result) : Prop where
  solutions : ∀ (V : Type) (S : Sem V) (σ : String → V) (κ₀ : ℕ → ℕ → List ℤ → V),
    Solves S σ κ₀ ts ↔ ∃ κ, Solves S σ κ res.templates
  determined : ∀ (V : Type) (S : Sem V) (σ : String → V) (κ κ' : ℕ → ℕ → List ℤ → V),
    Solves S σ κ res.templates → Solves S σ κ' res.templates →
      ∀ v ∈ res.vars, ∀ q, InShape q v.shape → κ v.group v.result q = κ' v.group v.result q
  bounds : ∀ t ∈ res.templates, ∀ s ∈ t.spaces, ∀ η, InSpace η s → ∀ n r idx, Within t (.cse n r idx) →
    ∃ v ∈ res.vars, v.group = n ∧ v.result = r ∧ InShape (idx.map fun x => η x.1 - x.2) v.shape

/-- In the arguments of calls, reductions are over one range and not nested, and calls are used for
their first result. -/
def SimpleArg : Ex → Prop
  | .bound d k => d = 0 ∧ k = 0
  | .call _ _ r _ => r = 0
  | _ => True

/-- Calls are not in reductions. -/
def ClosedCalls (ts : List Template) : Prop :=
  ∀ t ∈ ts, ∀ id f r as, Within t (.call id f r as) → ScopedArgs 0 as

/-- The arguments of calls are simple. -/
def SimpleCalls (ts : List Template) : Prop :=
  ∀ t ∈ ts, ∀ id f r as, Within t (.call id f r as) → ∀ a ∈ subsArgs as, SimpleArg a

/-- If two calls differ in their inductions only, then those of the one are a function of those of the
other. -/
def Aligned (ts : List Template) : Prop :=
  ∀ t ∈ ts, ∀ t' ∈ ts, ∀ id f r as id' r' bs, Within t (.call id f r as) → Within t' (.call id' f r' bs) →
    relabelArgs (fun _ => 0) as = relabelArgs (fun _ => 0) bs →
      ∃ ρ, relabelArgs (fun i => i) as = relabelArgs ρ bs

/-- Every instance has at most one range. -/
def OneRange (ts : List Template) : Prop := ∀ t ∈ ts, ∀ s ∈ t.spaces, s.length ≤ 1

/-! ## Which calls have to go -/

mutual
/-- The expressions are equal up to the numbers of calls and the inductions, which are in a relation. -/
def Similar (R : ℕ → ℕ → Prop) : Ex → Ex → Prop
  | .const k, .const l => k = l
  | .get v, .get w => v = w
  | .ind i, .ind j => R i j
  | .bound d k, .bound d' k' => d = d' ∧ k = k'
  | .op o as, .op p bs => o = p ∧ SimilarArgs R as bs
  | .red o as a, .red p bs b => o = p ∧ SimilarArgs R as bs ∧ Similar R a b
  | .call _ f r as, .call _ g q bs => f = g ∧ r = q ∧ SimilarArgs R as bs
  | _, _ => False

/-- For operands. -/
def SimilarArgs (R : ℕ → ℕ → Prop) : Args → Args → Prop
  | .nil, .nil => True
  | .cons a as, .cons b bs => Similar R a b ∧ SimilarArgs R as bs
  | _, _ => False
end

/-- The range of an induction, in the first of the instances. -/
def rangeIn (t : Template) (i : ℕ) : Option Range := ((t.spaces.headD []).head?).bind fun b => b[i]?

/-- All the instances have the same iteration space, which is one range, or none for scalar equations. -/
def Uniform (t : Template) : Prop := ∃ s, s.length ≤ 1 ∧ t.spaces ≠ [] ∧ ∀ s' ∈ t.spaces, s' = s

/-- The call with the number is in the template, and its arguments are those of a given call, up to
inductions with the same ranges. -/
def IsCopy (ts : List Template) (t₀ : Template) (f : String) (as₀ : Args) (x : ℕ × ℕ) : Prop :=
  ∃ t, ts[x.1]? = some t ∧ Uniform t ∧ ∃ r as, Within t (.call x.2 f r as) ∧
    SimilarArgs (fun i j => rangeIn t i = rangeIn t₀ j) as as₀

end Marco.Spec.CSE
