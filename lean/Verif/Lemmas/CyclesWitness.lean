import Verif.Lemmas.CyclesScalar

/-! Helper definitions and lemmas for concrete systems of equations with one dimension. -/

namespace Marco.Cycles
open Marco Marco.Spec

/-- The access `v[a * i + b]`. -/
def lin (v : Nat) (a b : Int) : Acc := ⟨v, fun p => {[a * p.headD 0 + b]}⟩

/-- Points with one coordinate. -/
def pts (l : List Int) : Finset Point := (l.map fun x => [x]).toFinset

/-- Every set is one range. (With one dimension it is so for sets of consecutive integers.) -/
def rep1 : Rep := ⟨fun s => [s], fun s l => l.filter fun w => s ∩ w.box ≠ ∅⟩

theorem rep1_ok : rep1.Ok := by
  constructor
  · intro s p; simp [rep1]
  · intro s l w
    simp only [rep1, List.mem_filter, decide_eq_true_eq, nonempty_iff]

theorem mem_lin {v : Nat} {a b : Int} {p x : Point} :
    x ∈ (lin v a b).img p ↔ x = [a * p.headD 0 + b] := by
  simp [lin]

/-- The occurrences do not depend on the order of the components. -/
theorem occurrences_of {eqs : Nat → Eqn} {scc : List Nat} {fuel : Nat} {s : ScalarEq} {n : Nat}
    (h : (match search eqs rep1 (writesMap eqs rep1 scc) fuel ⟨[], fun _ => ∅⟩ scc with
      | some st => decide ((vertices (partition st.cycles)).countP (hasScalar s) +
          (remaining eqs st scc).flatten.countP (hasScalar s) = n)
      | none => false) = true) :
    (∃ out, GetSCCs eqs rep1 fuel [scc] out) ∧
      ∀ out, GetSCCs eqs rep1 fuel [scc] out → occurrences out s = n := by
  split at h
  · rename_i st hst
    constructor
    · obtain ⟨out, hout⟩ := process_exists hst
      exact ⟨out, [out], .cons hout .nil, by simp⟩
    · rintro out ⟨outs, houts, hperm⟩
      cases houts with
      | cons h1 h2 =>
        cases h2
        obtain ⟨st', hst', hc⟩ := process_count h1
        rw [hst] at hst'
        cases hst'
        rw [occurrences_perm hperm s, List.flatten_singleton, hc s]
        exact of_decide_eq_true h
  · cases h

/-- A tour of all the equations makes them one component. -/
theorem components_of_tour {eqs : Nat → Eqn} {scc : List Nat} {x : Nat} {l : List Nat}
    (hn : scc.Nodup) (hall : ∀ e, (eqs e).it.Nonempty → e ∈ scc)
    (ht : List.IsChain (ArrayDependsOn eqs) (x :: l ++ [x])) (hs : ∀ e ∈ scc, e ∈ x :: l) :
    ArrayComponents eqs [scc] := by
  refine ⟨by simpa using hn, by simpa using hall, ?_⟩
  have key : ∀ u ∈ x :: l, Relation.ReflTransGen (ArrayDependsOn eqs) x u ∧
      Relation.ReflTransGen (ArrayDependsOn eqs) u x := by
    intro u hu
    have hm : ∀ {a b}, Relation.ReflTransGen (fun a b => (a, b) ∈ (x :: l).zip (l ++ [x])) a b →
        Relation.ReflTransGen (ArrayDependsOn eqs) a b :=
      fun h => Relation.ReflTransGen.mono (fun a b hab => zip_chain ht a b hab) _ _ h
    have := zip_reach (h := x) u hu
    exact ⟨hm this.1, hm this.2⟩
  intro c hc e he f hf
  rw [List.mem_singleton] at hc
  subst hc
  rw [List.flatten_singleton] at hf
  have h1 := key e (hs e he)
  have h2 := key f (hs f hf)
  exact ⟨fun _ => ⟨h1.2.trans h2.1, h2.2.trans h1.1⟩, fun _ => hf⟩

/-- A decidable form of the dependency between points. -/
def depB (eqs : Nat → Eqn) (e : Nat) (p : Point) (f : Nat) (q : Point) : Bool :=
  decide (p ∈ (eqs e).it) && decide (q ∈ (eqs f).it) &&
    (eqs e).reads.any fun r => (eqs f).writes.any fun w =>
      r.var == w.var && decide (r.img p ∩ w.img q ≠ ∅)

theorem depB_iff {eqs : Nat → Eqn} {e f : Nat} {p q : Point} :
    depB eqs e p f q = true ↔ DependsOn eqs (e, p) (f, q) := by
  simp only [depB, Bool.and_eq_true, decide_eq_true_eq, List.any_eq_true, beq_iff_eq, nonempty_iff,
    DependsOn, IsScalarEq, and_assoc]

theorem selfFree_of {eqs : Nat → Eqn} {e : Nat}
    (h : ∀ p ∈ (eqs e).it, ∀ q ∈ (eqs e).it, depB eqs e p e q = true → p = q) :
    SelfFree eqs e :=
  fun p q hd => h p hd.1 q hd.2.1 (depB_iff.2 hd)

/-- A decidable form of `Matched`, for finitely many equations. -/
def matchedB (eqs : Nat → Eqn) (n : Nat) : Bool :=
  (List.range n).all fun e => (List.range n).all fun f =>
    (eqs e).writes.all fun w => (eqs f).writes.all fun u =>
      (w.var != u.var) || decide (∀ p ∈ (eqs e).it, ∀ q ∈ (eqs f).it,
        w.img p ∩ u.img q ≠ ∅ → e = f ∧ p = q)

theorem matched_of {eqs : Nat → Eqn} {n : Nat} (hn : ∀ e, (eqs e).it.Nonempty → e < n)
    (h : matchedB eqs n = true) : Matched eqs := by
  rintro ⟨e, p⟩ ⟨f, q⟩ hs ht ⟨w, hw, u, hu, hvar, v, h1, h2⟩
  simp only [matchedB, List.all_eq_true, List.mem_range, Bool.or_eq_true, bne_iff_ne,
    decide_eq_true_eq] at h
  rcases h e (hn e ⟨p, hs⟩) f (hn f ⟨q, ht⟩) w hw u hu with h3 | h3
  · exact absurd hvar h3
  · have := h3 p hs q ht (nonempty_iff.2 ⟨v, h1, h2⟩)
    rw [this.1, this.2]

/-- The equations of a list. -/
def eqsOf (l : List Eqn) (e : Nat) : Eqn := (l[e]?).getD ⟨∅, [], []⟩

theorem eqsOf_lt {l : List Eqn} {e : Nat} (h : ((eqsOf l) e).it.Nonempty) : e < l.length := by
  by_contra hn
  have : l[e]? = none := List.getElem?_eq_none (by omega)
  simp [eqsOf, this] at h

end Marco.Cycles
