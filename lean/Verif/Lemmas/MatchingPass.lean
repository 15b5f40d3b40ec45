import Verif.Spec.MatchingPass
import Mathlib.Algebra.BigOperators.Group.List.Basic
import Mathlib.Data.Finset.Union

/-!
# Helper lemmas for C108
-/

namespace Marco.MatchPass
open Marco Matching Mat Spec Marco.Spec.MatchPass
variable {P : Type}

/-- Sums in either order. -/
theorem sum_swap {α β M : Type} [AddCommMonoid M] (l : List α) (l' : List β) (f : α → β → M) :
    (l.map fun a => (l'.map fun b => f a b).sum).sum = (l'.map fun b => (l.map fun a => f a b).sum).sum := by
  induction l with
  | nil => simp
  | cons a l ih => simp [ih, List.sum_map_add]

/-- The sum of disjoint sets is their union. -/
theorem sum_val {α : Type} [DecidableEq α] (F : Nat → Finset α) : ∀ l : List Nat, l.Nodup →
    (∀ a ∈ l, ∀ b ∈ l, a ≠ b → Disjoint (F a) (F b)) →
    (l.map fun j => (F j).val).sum = (l.toFinset.biUnion F).val
  | [], _, _ => rfl
  | a :: l, hn, hd => by
    rw [List.nodup_cons] at hn
    have hdis : Disjoint (F a) (l.toFinset.biUnion F) := by
      rw [Finset.disjoint_biUnion_right]
      intro b hb
      rw [List.mem_toFinset] at hb
      exact hd a (by simp) b (by simp [hb]) (fun h => hn.1 (h ▸ hb))
    rw [List.map_cons, List.sum_cons, sum_val F l hn.2 (fun a ha b hb => hd a (by simp [ha]) b (by simp [hb])),
      List.toFinset_cons, Finset.biUnion_insert, Finset.union_val]
    exact Multiset.add_eq_union_iff_disjoint.2 (Finset.disjoint_val.2 hdis)

theorem mem_pairs {G : Graph} {m : Nat → Mat} {i j : Nat} {p q : Point} : (p, q) ∈ pairs G m i j ↔
    ∃ k < G.nd, (G.edge k).eq = i ∧ (G.edge k).var = j ∧ (p, q) ∈ m k := by
  simp only [pairs, Finset.mem_biUnion, Finset.mem_range]
  constructor
  · rintro ⟨k, hk, h⟩
    split_ifs at h with hc
    · exact ⟨k, hk, hc.1, hc.2, h⟩
    · simp at h
  · rintro ⟨k, hk, h1, h2, h3⟩
    exact ⟨k, hk, by rw [if_pos ⟨h1, h2⟩]; exact h3⟩

theorem mem_eqsOf {s : Mat} {p : Point} : p ∈ s.eqsOf ↔ ∃ q, (p, q) ∈ s := by
  simp [eqsOf]

theorem mem_varsOf {s : Mat} {q : Point} : q ∈ s.varsOf ↔ ∃ p, (p, q) ∈ s := by
  simp [varsOf]

/-- The indices of an equation are divided among the variables. -/
theorem eqs_divided {G : Graph} {m : Nat → Mat} (hG : GraphOk G) (hm : Perfect G m) {i : Nat} (hi : i < G.ne) :
    ((List.range G.nv).map fun j => (pairs G m i j).eqsOf.val).sum = (G.node (.eq i)).idx.val := by
  rw [sum_val (fun j => (pairs G m i j).eqsOf) _ List.nodup_range]
  · congr 1
    ext p
    simp only [Finset.mem_biUnion, List.mem_toFinset, List.mem_range, mem_eqsOf, mem_pairs]
    constructor
    · rintro ⟨j, hj, q, k, hk, h1, h2, h3⟩
      exact h1 ▸ (hG.inc k p q (hm.1 k h3)).2.1
    · intro hp
      obtain ⟨⟨k, q⟩, ⟨h1, h2⟩, -⟩ := hm.2.1 i hi p hp
      have hk := (hG.inc k p q (hm.1 k h2)).1
      exact ⟨_, hG.varLt k hk, q, k, hk, h1, rfl, h2⟩
  · intro a ha b hb hab
    rw [Finset.disjoint_left]
    intro p hp hp'
    obtain ⟨q, hq⟩ := mem_eqsOf.1 hp
    obtain ⟨q', hq'⟩ := mem_eqsOf.1 hp'
    obtain ⟨k, hk, h1, h2, h3⟩ := mem_pairs.1 hq
    obtain ⟨k', hk', h1', h2', h3'⟩ := mem_pairs.1 hq'
    have hpi : p ∈ (G.node (.eq i)).idx := h1 ▸ (hG.inc k p q (hm.1 k h3)).2.1
    have := (hm.2.1 i hi p hpi).unique (y₁ := (k, q)) (y₂ := (k', q')) ⟨h1, h3⟩ ⟨h1', h3'⟩
    cases this
    exact hab (h2.symm.trans h2')

/-- The indices of a variable are divided among the equations. -/
theorem vars_divided {G : Graph} {m : Nat → Mat} (hG : GraphOk G) (hm : Perfect G m) {j : Nat} (hj : j < G.nv) :
    ((List.range G.ne).map fun i => (pairs G m i j).varsOf.val).sum = (G.node (.var j)).idx.val := by
  rw [sum_val (fun i => (pairs G m i j).varsOf) _ List.nodup_range]
  · congr 1
    ext q
    simp only [Finset.mem_biUnion, List.mem_toFinset, List.mem_range, mem_varsOf, mem_pairs]
    constructor
    · rintro ⟨i, hi, p, k, hk, h1, h2, h3⟩
      exact h2 ▸ (hG.inc k p q (hm.1 k h3)).2.2
    · intro hq
      obtain ⟨⟨k, p⟩, ⟨h1, h2⟩, -⟩ := hm.2.2 j hj q hq
      have hk := (hG.inc k p q (hm.1 k h2)).1
      exact ⟨_, hG.eqLt k hk, p, k, hk, rfl, h1, h2⟩
  · intro a ha b hb hab
    rw [Finset.disjoint_left]
    intro q hq hq'
    obtain ⟨p, hp⟩ := mem_varsOf.1 hq
    obtain ⟨p', hp'⟩ := mem_varsOf.1 hq'
    obtain ⟨k, hk, h1, h2, h3⟩ := mem_pairs.1 hp
    obtain ⟨k', hk', h1', h2', h3'⟩ := mem_pairs.1 hp'
    have hqj : q ∈ (G.node (.var j)).idx := h2 ▸ (hG.inc k p q (hm.1 k h3)).2.2
    have := (hm.2.2 j hj q hqj).unique (y₁ := (k, p)) (y₂ := (k', p')) ⟨h2, h3⟩ ⟨h2', h3'⟩
    cases this
    exact hab (h1.symm.trans h1')

/-- A sum over the numbered elements that depends on the numbers only. -/
theorem sum_zipIdx {α M : Type} [AddCommMonoid M] (l : List α) (f : Nat → M) :
    (l.zipIdx.map fun x => f x.2).sum = ((List.range l.length).map f).sum := by
  have : (l.zipIdx.map fun x => f x.2) = (l.zipIdx.map Prod.snd).map f := by rw [List.map_map]; rfl
  rw [this, List.zipIdx_map_snd, List.range_eq_range']

theorem sum_map_map {α β : Type} (l : List (Multiset α)) (f : α → β) :
    (l.map fun s => s.map f).sum = l.sum.map f := by
  induction l with
  | nil => rfl
  | cons a l ih => simp [ih]

/-- The scalar equations of one instance. -/
def one (e : Inst P) : Multiset (Nat × P × Point) :=
  if e.inductions = 0 then {(e.template, e.props, [])} else e.indices.val.map fun p => (e.template, e.props, p)

/-- The variables that one instance is matched with. -/
def oneVar (e : Inst P) : Multiset (String × Point) :=
  match e.matched with
  | none => 0
  | some (n, s) => if s = ∅ then {(n, [])} else s.val.map fun p => (n, p)

theorem scalarEqs_eq (l : List (Inst P)) : scalarEqs l = (l.map one).sum := rfl

theorem matchedVars_eq (l : List (Inst P)) : matchedVars l = (l.map oneVar).sum := rfl

theorem sum_filterMap {α β M : Type} [AddCommMonoid M] (l : List α) (g : α → Option β) (f : β → M) :
    ((l.filterMap g).map f).sum = (l.map fun a => match g a with | some b => f b | none => 0).sum := by
  induction l with
  | nil => rfl
  | cons a l ih =>
    cases h : g a <;> simp [h, ih]

theorem sum_flatMap {α β M : Type} [AddCommMonoid M] (l : List α) (g : α → List β) (f : β → M) :
    ((l.flatMap g).map f).sum = (l.map fun a => ((g a).map f).sum).sum := by
  induction l with
  | nil => rfl
  | cons a l ih => simp [ih]

theorem mask_empty : mask ∅ = {[0]} := by simp [mask]

theorem mask_ne {s : Finset Point} (h : s ≠ ∅) : mask s = s := by simp [mask, h]

theorem node_eq {bs : List VBridge} {es : List (Inst P)} {edges : List (Nat × Nat × Mat)} {i : Nat} {e : Inst P}
    (h : es[i]? = some e) : ((buildGraph bs es edges).node (.eq i)).idx = mask e.indices := by
  simp [buildGraph, h]

theorem node_var {bs : List VBridge} {es : List (Inst P)} {edges : List (Nat × Nat × Mat)} {j : Nat} {b : VBridge}
    (h : bs[j]? = some b) : ((buildGraph bs es edges).node (.var j)).idx = mask b.2 := by
  simp [buildGraph, h]

/-- The matched indices are indices of the ends. -/
theorem pairs_sub {G : Graph} {m : Nat → Mat} (hG : GraphOk G) (hm : Perfect G m) {i j : Nat} :
    (pairs G m i j).eqsOf ⊆ (G.node (.eq i)).idx ∧ (pairs G m i j).varsOf ⊆ (G.node (.var j)).idx := by
  constructor
  · intro p hp
    obtain ⟨q, hq⟩ := mem_eqsOf.1 hp
    obtain ⟨k, hk, h1, h2, h3⟩ := mem_pairs.1 hq
    exact h1 ▸ (hG.inc k p q (hm.1 k h3)).2.1
  · intro q hq
    obtain ⟨p, hp⟩ := mem_varsOf.1 hq
    obtain ⟨k, hk, h1, h2, h3⟩ := mem_pairs.1 hp
    exact h2 ▸ (hG.inc k p q (hm.1 k h3)).2.2

theorem ofs_ne {s : Mat} (h : s ≠ ∅) : s.eqsOf ≠ ∅ ∧ s.varsOf ≠ ∅ := by
  obtain ⟨⟨p, q⟩, hs⟩ := Finset.nonempty_iff_ne_empty.2 h
  exact ⟨Finset.ne_empty_of_mem (mem_eqsOf.2 ⟨q, hs⟩), Finset.ne_empty_of_mem (mem_varsOf.2 ⟨p, hs⟩)⟩

theorem eq_single {α : Type} [DecidableEq α] {s : Finset α} {a : α} (h : s ⊆ {a}) (hn : s ≠ ∅) : s = {a} :=
  (Finset.subset_singleton_iff.1 h).resolve_left hn

/-- The scalar equation that an index of the graph stands for. -/
def eqOf (e : Inst P) (p : Point) : Nat × P × Point := (e.template, e.props, if e.inductions = 0 then [] else p)

/-- The scalar variable that an index of the graph stands for. -/
def varOf (b : VBridge) (q : Point) : String × Point := (b.1, if b.2 = ∅ then [] else q)

theorem one_instance {e : Inst P} {b : VBridge} {s : Mat} (he : e.inductions = 0 ↔ e.indices = ∅) (hs : s ≠ ∅)
    (hsub : s.eqsOf ⊆ mask e.indices) : one (instance_ e b s) = s.eqsOf.val.map (eqOf e) := by
  by_cases h : e.inductions = 0
  · rw [he.1 h, mask_empty] at hsub
    rw [eq_single hsub (ofs_ne hs).1]
    simp [one, instance_, h, eqOf]
  · simp only [one, instance_, h, if_false, ne_eq, not_false_eq_true, if_true]
    apply Multiset.map_congr rfl
    intro p _
    simp [eqOf, h]

theorem oneVar_instance {e : Inst P} {b : VBridge} {s : Mat} (hs : s ≠ ∅) (hsub : s.varsOf ⊆ mask b.2) :
    oneVar (instance_ e b s) = s.varsOf.val.map (varOf b) := by
  by_cases h : b.2 = ∅
  · rw [h, mask_empty] at hsub
    rw [eq_single hsub (ofs_ne hs).2]
    simp [oneVar, instance_, h, varOf]
  · simp only [oneVar, instance_, h, if_false, (ofs_ne hs).2]
    apply Multiset.map_congr rfl
    intro p _
    simp [varOf, h]

theorem one_mask {e : Inst P} (he : e.inductions = 0 ↔ e.indices = ∅) : one e = (mask e.indices).val.map (eqOf e) := by
  by_cases h : e.inductions = 0
  · rw [he.1 h, mask_empty]
    simp [one, h, eqOf]
  · rw [mask_ne (fun hh => h (he.2 hh))]
    simp only [one, h, if_false]
    apply Multiset.map_congr rfl
    intro p _
    simp [eqOf, h]

theorem sum_created {M : Type} [AddCommMonoid M] (f : Inst P → M) (G : Graph) (m : Nat → Mat) (bs : List VBridge)
    (es : List (Inst P)) : ((created G m bs es).map f).sum = (es.zipIdx.map fun e => (bs.zipIdx.map fun b =>
      if pairs G m e.2 b.2 = ∅ then 0 else f (instance_ e.1 b.1 (pairs G m e.2 b.2))).sum).sum := by
  rw [created, sum_flatMap]
  congr 1
  apply List.map_congr_left
  intro e _
  rw [sum_filterMap]
  congr 1
  apply List.map_congr_left
  intro b _
  dsimp only
  split_ifs <;> rfl

theorem mem_zipIdx {α : Type} {l : List α} {x : α × Nat} (h : x ∈ l.zipIdx) : l[x.2]? = some x.1 := by
  rw [List.mem_zipIdx_iff_getElem?] at h
  exact h

theorem lt_of_get {α : Type} {l : List α} {i : Nat} {a : α} (h : l[i]? = some a) : i < l.length := by
  rw [List.getElem?_eq_some_iff] at h
  exact h.1

theorem map_zipIdx {α β : Type} (l : List α) (f : α → β) : (l.zipIdx.map fun x => f x.1) = l.map f := by
  have : (l.zipIdx.map fun x => f x.1) = (l.zipIdx.map Prod.fst).map f := by rw [List.map_map]; rfl
  rw [this, List.zipIdx_map_fst]

section
variable {bs : List VBridge} {es : List (Inst P)} {edges : List (Nat × Nat × Mat)} {m : Nat → Mat}

theorem created_eqs (hG : EdgesOk bs es edges) (hm : Perfect (buildGraph bs es edges) m) (he : EqsOk es) :
    scalarEqs (created (buildGraph bs es edges) m bs es) = scalarEqs es := by
  rw [scalarEqs_eq, scalarEqs_eq, sum_created, ← map_zipIdx es one]
  congr 1
  apply List.map_congr_left
  intro e hem
  have hget := mem_zipIdx hem
  have hok := he e.1 (List.mem_of_getElem? hget)
  have h1 : (bs.zipIdx.map fun b => if pairs (buildGraph bs es edges) m e.2 b.2 = ∅ then 0 else
      one (instance_ e.1 b.1 (pairs (buildGraph bs es edges) m e.2 b.2))) =
      bs.zipIdx.map fun b => (pairs (buildGraph bs es edges) m e.2 b.2).eqsOf.val.map (eqOf e.1) := by
    apply List.map_congr_left
    intro b hb
    split_ifs with h0
    · rw [h0]; rfl
    · exact one_instance hok h0 ((pairs_sub hG hm).1.trans (by rw [node_eq hget]))
  rw [h1, sum_zipIdx bs fun j => (pairs (buildGraph bs es edges) m e.2 j).eqsOf.val.map (eqOf e.1)]
  have h2 := sum_map_map ((List.range bs.length).map fun j => (pairs (buildGraph bs es edges) m e.2 j).eqsOf.val) (eqOf e.1)
  rw [List.map_map] at h2
  rw [show (fun j => (pairs (buildGraph bs es edges) m e.2 j).eqsOf.val.map (eqOf e.1)) =
    (fun s => Multiset.map (eqOf e.1) s) ∘ fun j => (pairs (buildGraph bs es edges) m e.2 j).eqsOf.val from rfl, h2,
    one_mask hok]
  have h3 := eqs_divided hG hm (i := e.2) (lt_of_get hget)
  rw [node_eq hget] at h3
  exact congrArg _ h3

theorem created_vars (hG : EdgesOk bs es edges) (hm : Perfect (buildGraph bs es edges) m) :
    matchedVars (created (buildGraph bs es edges) m bs es) = (bs.map fun b => (mask b.2).val.map (varOf b)).sum := by
  rw [matchedVars_eq, sum_created, sum_swap, ← map_zipIdx bs fun b => (mask b.2).val.map (varOf b)]
  congr 1
  apply List.map_congr_left
  intro b hbm
  have hget := mem_zipIdx hbm
  have h1 : (es.zipIdx.map fun e => if pairs (buildGraph bs es edges) m e.2 b.2 = ∅ then 0 else
      oneVar (instance_ e.1 b.1 (pairs (buildGraph bs es edges) m e.2 b.2))) =
      es.zipIdx.map fun e => (pairs (buildGraph bs es edges) m e.2 b.2).varsOf.val.map (varOf b.1) := by
    apply List.map_congr_left
    intro e hem
    split_ifs with h0
    · rw [h0]; rfl
    · exact oneVar_instance h0 ((pairs_sub hG hm).2.trans (by rw [node_var hget]))
  rw [h1, sum_zipIdx es fun i => (pairs (buildGraph bs es edges) m i b.2).varsOf.val.map (varOf b.1)]
  have h2 := sum_map_map ((List.range es.length).map fun i => (pairs (buildGraph bs es edges) m i b.2).varsOf.val) (varOf b.1)
  rw [List.map_map] at h2
  rw [show (fun i => (pairs (buildGraph bs es edges) m i b.2).varsOf.val.map (varOf b.1)) =
    (fun s => Multiset.map (varOf b.1) s) ∘ fun i => (pairs (buildGraph bs es edges) m i b.2).varsOf.val from rfl, h2]
  have h3 := vars_divided hG hm (j := b.2) (lt_of_get hget)
  rw [node_var hget] at h3
  exact congrArg _ h3

/-- All the old instances are erased. -/
theorem remaining_nil (hG : EdgesOk bs es edges) (hm : Perfect (buildGraph bs es edges) m) :
    remaining (buildGraph bs es edges) m bs es = [] := by
  rw [remaining, List.filterMap_eq_nil_iff]
  intro e hem
  have hget := mem_zipIdx hem
  rw [if_neg]
  intro hall
  rw [List.all_eq_true] at hall
  have hne : mask e.1.indices ≠ ∅ := by
    by_cases h : e.1.indices = ∅
    · rw [h, mask_empty]; simp
    · rwa [mask_ne h]
  obtain ⟨p, hp⟩ := Finset.nonempty_iff_ne_empty.2 hne
  rw [← node_eq (bs := bs) (edges := edges) hget] at hp
  obtain ⟨⟨k, q⟩, ⟨h1, h2⟩, -⟩ := hm.2.1 e.2 (lt_of_get hget) p hp
  have hk := (hG.inc k p q (hm.1 k h2)).1
  have hlt : ((buildGraph bs es edges).edge k).var < bs.length := hG.varLt k hk
  have := hall (bs[((buildGraph bs es edges).edge k).var], ((buildGraph bs es edges).edge k).var)
    (by rw [List.mem_zipIdx_iff_getElem?]; simp [hlt])
  simp only [decide_eq_true_eq] at this
  have hin : (p, q) ∈ pairs (buildGraph bs es edges) m e.2 ((buildGraph bs es edges).edge k).var :=
    mem_pairs.2 ⟨k, hk, h1, rfl, h2⟩
  rw [this] at hin
  simp at hin

end

theorem unknown_eq {ph : Phase} {v : Var} (hv : v.scalar = false → boxPoints v.shape ≠ ∅) :
    unknown ph v = match matchable ph v with
      | none => 0
      | some s => (mask s).val.map (varOf (v.name, s)) := by
  have arr : ∀ s : Finset Point, s ≠ ∅ → (mask s).val.map (varOf (v.name, s)) = s.val.map fun p => (v.name, p) := by
    intro s hs
    rw [mask_ne hs]
    apply Multiset.map_congr rfl
    intro p _
    simp [varOf, hs]
  have sca : (mask ∅).val.map (varOf (v.name, ∅)) = {(v.name, [])} := by
    simp [mask_empty, varOf]
  cases ph with
  | ic =>
    cases hsc : v.scalar with
    | true => simp [unknown, matchable, Var.indices, hsc, sca]
    | false => simp [unknown, matchable, Var.indices, hsc, arr _ (hv hsc)]
  | main =>
    cases hro : v.readOnly with
    | true => simp [unknown, matchable, hro]
    | false =>
      cases hd : v.derived with
      | none =>
        cases hsc : v.scalar with
        | true => simp [unknown, matchable, Var.indices, hsc, sca, hro, hd]
        | false => simp [unknown, matchable, Var.indices, hsc, arr _ (hv hsc), hro, hd]
      | some d =>
        cases hsc : v.scalar with
        | true => simp [unknown, matchable, hsc, hro, hd]
        | false =>
          by_cases he : boxPoints v.shape \ d = ∅
          · simp [unknown, matchable, Var.indices, hsc, hro, hd, he]
          · simp [unknown, matchable, Var.indices, hsc, hro, hd, he, arr _ he]

theorem unknowns_eq {ph : Phase} {vs : List Var} (hv : VarsOk vs) :
    (vs.map (unknown ph)).sum = ((bridges ph vs).map fun b => (mask b.2).val.map (varOf b)).sum := by
  rw [bridges, sum_filterMap]
  congr 1
  apply List.map_congr_left
  intro v hvm
  rw [unknown_eq (hv v hvm)]
  cases matchable ph v <;> rfl

theorem card_sum {α β : Type} (l : List α) (f : α → Multiset β) :
    Multiset.card (l.map f).sum = (l.map fun a => Multiset.card (f a)).sum := by
  induction l with
  | nil => rfl
  | cons a l ih => simp [ih]

theorem numEquations_eq {es : List (Inst P)} (he : EqsOk es) : numEquations es = Multiset.card (scalarEqs es) := by
  rw [scalarEqs_eq, card_sum, numEquations]
  congr 1
  apply List.map_congr_left
  intro e hem
  rw [one_mask (he e hem)]
  simp

theorem numVariables_eq {ph : Phase} {vs : List Var} (hv : VarsOk vs) :
    numVariables (bridges ph vs) = Multiset.card (vs.map (unknown ph)).sum := by
  rw [unknowns_eq hv, card_sum, numVariables]
  congr 1
  apply List.map_congr_left
  intro e hem
  simp

end Marco.MatchPass
