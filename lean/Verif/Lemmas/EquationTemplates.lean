import Verif.Spec.EquationTemplates
import Verif.Lemmas.EquationSplit
import Mathlib.Algebra.BigOperators.Group.Finset.Sigma
import Mathlib.Algebra.BigOperators.Group.List.Basic
import Mathlib.Data.Int.Interval

/-!
# Lemmas about the creation of equation instances
-/

namespace Marco.Templ
open Marco Spec Split
open scoped BigOperators

/-! ### Sums over indices -/

theorem overIndices_append {β : Type} [AddCommMonoid β] : ∀ (ss ts : List (Finset Int)) (env : Point)
    (f : Point → β), overIndices (ss ++ ts) env f =
      overIndices ss env fun e => overIndices ts e f
  | [], ts, env, f => rfl
  | s :: ss, ts, env, f => by
    simp only [List.cons_append, overIndices, overIndices_append ss ts]

theorem overIndices_add {β : Type} [AddCommMonoid β] : ∀ (ss : List (Finset Int)) (env : Point)
    (f g : Point → β), overIndices ss env (fun e => f e + g e) =
      overIndices ss env f + overIndices ss env g
  | [], env, f, g => rfl
  | s :: ss, env, f, g => by
    simp only [overIndices, overIndices_add ss, Finset.sum_add_distrib]

theorem overIndices_zero {β : Type} [AddCommMonoid β] : ∀ (ss : List (Finset Int)) (env : Point),
    overIndices ss env (fun _ => (0 : β)) = 0
  | [], env => rfl
  | s :: ss, env => by simp only [overIndices, overIndices_zero ss, Finset.sum_const_zero]

theorem overIndices_congr {β : Type} [AddCommMonoid β] {f g : Point → β} :
    ∀ (ss : List (Finset Int)) (env : Point),
    (∀ e, e.length = env.length + ss.length → f e = g e) →
      overIndices ss env f = overIndices ss env g
  | [], env, h => h env rfl
  | s :: ss, env, h => by
    simp only [overIndices]
    refine Finset.sum_congr rfl fun v _ => overIndices_congr ss _ fun e he => h e ?_
    rw [he]; simp; omega

/-- The sum over indices is the sum over the points, put after the values in `env`. -/
theorem overIndices_points {β : Type} [AddCommMonoid β] : ∀ (ss : List (Finset Int)) (env : Point)
    (f : Point → β) (S : Finset Point),
    (∀ p, p ∈ S ↔ List.Forall₂ (fun v s => v ∈ s) p ss) →
      overIndices ss env f = ∑ p ∈ S, f (env ++ p)
  | [], env, f, S, h => by
    have : S = {[]} := by
      ext p; rw [h, Finset.mem_singleton, List.forall₂_nil_right_iff]
    rw [this]; simp [overIndices]
  | s :: ss, env, f, S, h => by
    -- the points of the remaining indices
    let T : Finset Point := (S.image List.tail).filter fun q => List.Forall₂ (fun v s => v ∈ s) q ss
    have hT : s.Nonempty → ∀ q, q ∈ T ↔ List.Forall₂ (fun v s => v ∈ s) q ss := by
      rintro ⟨v, hv⟩ q
      simp only [T, Finset.mem_filter, Finset.mem_image]
      refine ⟨fun hq => hq.2, fun hq => ⟨⟨v :: q, (h _).2 (.cons hv hq), rfl⟩, hq⟩⟩
    rcases s.eq_empty_or_nonempty with rfl | hs
    · have : S = ∅ := by
        rw [Finset.eq_empty_iff_forall_notMem]
        intro p hp
        obtain ⟨v, q, hv, -, -⟩ := List.forall₂_cons_right_iff.1 ((h p).1 hp)
        simp at hv
      rw [this]; simp [overIndices]
    · have hST : S = (s ×ˢ T).image fun x : Int × Point => x.1 :: x.2 := by
        ext p
        rw [h, Finset.mem_image, List.forall₂_cons_right_iff]
        constructor
        · rintro ⟨v, q, hv, hq, rfl⟩
          exact ⟨(v, q), Finset.mem_product.2 ⟨hv, (hT hs q).2 hq⟩, rfl⟩
        · rintro ⟨⟨v, q⟩, hx, rfl⟩
          obtain ⟨hv, hq⟩ := Finset.mem_product.1 hx
          exact ⟨v, q, hv, (hT hs q).1 hq, rfl⟩
      rw [hST, Finset.sum_image (by rintro ⟨a, b⟩ _ ⟨c, d⟩ _ hh; simpa using hh),
        Finset.sum_product]
      simp only [overIndices]
      refine Finset.sum_congr rfl fun v _ => ?_
      rw [overIndices_points ss (env ++ [v]) f T (hT hs)]
      simp

theorem mem_subscripts : ∀ {ds : List Nat} {p : Point},
    p ∈ subscripts ds ↔ List.Forall₂ (fun v s => v ∈ s) p (ds.map fun d : Nat => Finset.Ico 0 (d : Int))
  | [], p => by simp [subscripts]
  | d :: ds, p => by
    simp only [subscripts, List.map_cons, List.forall₂_cons_right_iff, Finset.mem_image,
      Finset.mem_product, Prod.exists]
    constructor
    · rintro ⟨x, q, ⟨hx, hq⟩, rfl⟩
      exact ⟨x, q, hx, mem_subscripts.1 hq, rfl⟩
    · rintro ⟨x, q, hx, hq, rfl⟩
      exact ⟨x, q, ⟨hx, mem_subscripts.2 hq⟩, rfl⟩

/-! ### The scalar equations of operations -/

/-- The values of a loop. -/
def loopValues (l : Loop) : Finset Int := forValues l.first l.step l.last

mutual
/-- The scalar equations that an operation stands for. -/
def nodeScalars {α : Type} (env : Point) : Node α → Multiset (α × α)
  | .equation l r => sidesEquations env l r
  | .loop l body => ∑ v ∈ loopValues l, blockScalars (env ++ [v]) body
/-- The scalar equations that a block stands for. -/
def blockScalars {α : Type} (env : Point) : List (Node α) → Multiset (α × α)
  | [] => 0
  | n :: ns => nodeScalars env n + blockScalars env ns
end

theorem blockScalars_append {α : Type} (env : Point) : ∀ a b : List (Node α),
    blockScalars env (a ++ b) = blockScalars env a + blockScalars env b
  | [], b => by simp [blockScalars]
  | n :: a, b => by simp only [List.cons_append, blockScalars, blockScalars_append env a, add_assoc]

theorem blockScalars_nest {α : Type} : ∀ (ls : List Loop) (body : List (Node α)) (env : Point),
    blockScalars env (nest ls body) =
      overIndices (ls.map loopValues) env fun e => blockScalars e body
  | [], body, env => rfl
  | l :: ls, body, env => by
    simp only [nest, blockScalars, nodeScalars, List.map_cons, overIndices, add_zero,
      blockScalars_nest ls]

theorem loopValues_attributes (r : ForRange) : loopValues (attributes r) = indexRange r := by
  cases r <;> rfl

mutual
theorem lower_scalars {α : Type} : ∀ (e : Eqn α) (env : Point),
    blockScalars env (lower e) = equationScalars env e
  | .equality l r, env => by simp [lower, blockScalars, nodeScalars, equationScalars]
  | .loop i is body, env => by
    simp only [lower, equationScalars, blockScalars_nest, List.map_cons, List.map_map,
      loopValues_attributes, lowerAll_scalars body]
    congr 1
    congr 1
    exact List.map_congr_left fun r _ => loopValues_attributes r
theorem lowerAll_scalars {α : Type} : ∀ (es : List (Eqn α)) (env : Point),
    blockScalars env (lowerAll es) = sectionScalars env es
  | [], env => by simp [lowerAll, blockScalars, sectionScalars]
  | e :: es, env => by
    simp only [lowerAll, blockScalars_append, sectionScalars, lower_scalars e,
      lowerAll_scalars es]
end

/-! ### Properties of all equations and loops of a block -/

mutual
/-- All equations have as many values on both sides, with a property. -/
def nodeHas {α : Type} (P : Val α → Val α → Prop) : Node α → Prop
  | .equation l r => List.Forall₂ P l r
  | .loop _ body => blockHas P body
/-- The same, for a block. -/
def blockHas {α : Type} (P : Val α → Val α → Prop) : List (Node α) → Prop
  | [] => True
  | n :: ns => nodeHas P n ∧ blockHas P ns
end

mutual
/-- All loops have a property. -/
def nodeLoops {α : Type} (P : Loop → Prop) : Node α → Prop
  | .equation _ _ => True
  | .loop l body => P l ∧ blockLoops P body
/-- The same, for a block. -/
def blockLoops {α : Type} (P : Loop → Prop) : List (Node α) → Prop
  | [] => True
  | n :: ns => nodeLoops P n ∧ blockLoops P ns
end

theorem blockHas_append {α : Type} {P : Val α → Val α → Prop} : ∀ {a b : List (Node α)},
    blockHas P (a ++ b) ↔ blockHas P a ∧ blockHas P b
  | [], b => by simp [blockHas]
  | n :: a, b => by simp only [List.cons_append, blockHas, blockHas_append (a := a), and_assoc]

theorem blockLoops_append {α : Type} {P : Loop → Prop} : ∀ {a b : List (Node α)},
    blockLoops P (a ++ b) ↔ blockLoops P a ∧ blockLoops P b
  | [], b => by simp [blockLoops]
  | n :: a, b => by simp only [List.cons_append, blockLoops, blockLoops_append (a := a), and_assoc]

theorem blockHas_nest {α : Type} {P : Val α → Val α → Prop} : ∀ {ls : List Loop}
    {body : List (Node α)}, blockHas P (nest ls body) ↔ blockHas P body
  | [], body => Iff.rfl
  | l :: ls, body => by simp only [nest, blockHas, nodeHas, blockHas_nest (ls := ls), and_true]

theorem blockLoops_nest {α : Type} {P : Loop → Prop} : ∀ {ls : List Loop} {body : List (Node α)},
    blockLoops P (nest ls body) ↔ (∀ l ∈ ls, P l) ∧ blockLoops P body
  | [], body => by simp [nest]
  | l :: ls, body => by
    simp only [nest, blockLoops, nodeLoops, blockLoops_nest (ls := ls), and_true, List.mem_cons,
      forall_eq_or_imp, and_assoc]

mutual
theorem lower_has {α : Type} {P : Val α → Val α → Prop} : ∀ (e : Eqn α), eqnHas P e →
    blockHas P (lower e)
  | .equality l r, h => by
    rw [eqnHas] at h
    simpa [lower, blockHas, nodeHas] using h
  | .loop i is body, h => by
    rw [lower, blockHas_nest]; exact lowerAll_has body h
theorem lowerAll_has {α : Type} {P : Val α → Val α → Prop} : ∀ (es : List (Eqn α)), sectionHas P es →
    blockHas P (lowerAll es)
  | [], _ => trivial
  | e :: es, h => by
    rw [lowerAll, blockHas_append]; exact ⟨lower_has e h.1, lowerAll_has es h.2⟩
end

mutual
theorem lower_loops {α : Type} {P : Loop → Prop} : ∀ (e : Eqn α),
    eqnRanges (fun r => P (attributes r)) e → blockLoops P (lower e)
  | .equality l r, _ => by simp [lower, blockLoops, nodeLoops]
  | .loop i is body, h => by
    rw [lower, blockLoops_nest]
    refine ⟨?_, lowerAll_loops body h.2.2⟩
    rw [List.forall_mem_cons]
    refine ⟨h.1, fun l hl => ?_⟩
    obtain ⟨r, hr, rfl⟩ := List.mem_map.1 hl
    exact h.2.1 r hr
theorem lowerAll_loops {α : Type} {P : Loop → Prop} : ∀ (es : List (Eqn α)),
    sectionRanges (fun r => P (attributes r)) es → blockLoops P (lowerAll es)
  | [], _ => trivial
  | e :: es, h => by
    rw [lowerAll, blockLoops_append]; exact ⟨lower_loops e h.1, lowerAll_loops es h.2⟩
end

/-! ### EquationSidesSplit -/

/-- All equations have one value on each side. -/
def Ones {α : Type} (P : Val α → Val α → Prop) (ns : List (Node α)) : Prop :=
  ∀ n ∈ ns, ∃ l r, n = .equation [l] [r] ∧ P l r

theorem splitSides_ones {α : Type} {P : Val α → Val α → Prop} {lhs rhs : List (Val α)}
    (h : List.Forall₂ P lhs rhs) : Ones P (splitSides lhs rhs) := by
  have hl := h.length_eq
  unfold splitSides
  by_cases h1 : lhs.length = 1
  · obtain ⟨l, rfl⟩ := List.length_eq_one_iff.1 h1
    obtain ⟨r, rfl⟩ := List.length_eq_one_iff.1 (hl ▸ h1)
    intro n hn
    simp only [List.length_cons, List.length_nil, ne_eq, not_true_eq_false, false_and,
      if_false, List.mem_singleton] at hn
    exact ⟨l, r, hn, by cases h; assumption⟩
  · rw [if_pos ⟨h1, hl⟩]
    intro n hn
    obtain ⟨⟨l, r⟩, hx, rfl⟩ := List.mem_map.1 (List.mem_reverse.1 hn)
    exact ⟨l, r, rfl, List.forall₂_zip h hx⟩

theorem ones_has {α : Type} {P : Val α → Val α → Prop} : ∀ {ns : List (Node α)}, Ones P ns →
    blockHas P ns
  | [], _ => trivial
  | n :: ns, h => by
    obtain ⟨l, r, rfl, hp⟩ := h n (by simp)
    exact ⟨.cons hp .nil, ones_has fun m hm => h m (by simp [hm])⟩

theorem ones_loops {α : Type} {P : Val α → Val α → Prop} {Q : Loop → Prop} :
    ∀ {ns : List (Node α)}, Ones P ns → blockLoops Q ns
  | [], _ => trivial
  | n :: ns, h => by
    obtain ⟨l, r, rfl, hp⟩ := h n (by simp)
    exact ⟨trivial, ones_loops fun m hm => h m (by simp [hm])⟩

theorem blockScalars_reverse {α : Type} (env : Point) : ∀ ns : List (Node α),
    blockScalars env ns.reverse = blockScalars env ns
  | [] => rfl
  | n :: ns => by
    rw [List.reverse_cons, blockScalars_append, blockScalars_reverse env ns]
    simp only [blockScalars, add_zero]
    rw [add_comm]

theorem splitSides_scalars {α : Type} (env : Point) (lhs rhs : List (Val α)) :
    blockScalars env (splitSides lhs rhs) = sidesEquations env lhs rhs := by
  unfold splitSides
  split_ifs with h
  · rw [blockScalars_reverse]
    unfold sidesEquations
    generalize lhs.zip rhs = ps
    induction ps with
    | nil => rfl
    | cons x ps ih =>
      simp only [List.map_cons, List.sum_cons, blockScalars, nodeScalars, ih]
      simp [sidesEquations]
  · simp [blockScalars, nodeScalars]

mutual
/-- Each equation has one value on each side, with a property. -/
def nodeOne {α : Type} (P : Val α → Val α → Prop) : Node α → Prop
  | .equation lhs rhs => ∃ l r, lhs = [l] ∧ rhs = [r] ∧ P l r
  | .loop _ body => blockOne P body
/-- The same, for a block. -/
def blockOne {α : Type} (P : Val α → Val α → Prop) : List (Node α) → Prop
  | [] => True
  | n :: ns => nodeOne P n ∧ blockOne P ns
end

theorem blockOne_append {α : Type} {P : Val α → Val α → Prop} : ∀ {a b : List (Node α)},
    blockOne P (a ++ b) ↔ blockOne P a ∧ blockOne P b
  | [], b => by simp [blockOne]
  | n :: a, b => by simp only [List.cons_append, blockOne, blockOne_append (a := a), and_assoc]

theorem blockOne_nest {α : Type} {P : Val α → Val α → Prop} : ∀ {ls : List Loop}
    {body : List (Node α)}, blockOne P (nest ls body) ↔ blockOne P body
  | [], body => Iff.rfl
  | l :: ls, body => by simp only [nest, blockOne, nodeOne, blockOne_nest (ls := ls), and_true]

theorem ones_one {α : Type} {P : Val α → Val α → Prop} : ∀ {ns : List (Node α)}, Ones P ns →
    blockOne P ns
  | [], _ => trivial
  | n :: ns, h => by
    obtain ⟨l, r, rfl, hp⟩ := h n (by simp)
    exact ⟨⟨l, r, rfl, rfl, hp⟩, ones_one fun m hm => h m (by simp [hm])⟩

mutual
theorem split_spec {α : Type} {P : Val α → Val α → Prop} {Q : Loop → Prop} : ∀ (n : Node α),
    nodeHas P n → nodeLoops Q n → blockOne P (split n) ∧ blockLoops Q (split n) ∧
      ∀ env, blockScalars env (split n) = nodeScalars env n
  | .equation l r, h, _ => by
    have h1 := splitSides_ones h
    exact ⟨ones_one h1, ones_loops h1, fun env => splitSides_scalars env l r⟩
  | .loop l body, h, hq => by
    obtain ⟨h1, h2, h3⟩ := splitAll_spec body h hq.2
    refine ⟨⟨h1, trivial⟩, ⟨⟨hq.1, h2⟩, trivial⟩, fun env => ?_⟩
    simp only [split, blockScalars, nodeScalars, add_zero, h3]
theorem splitAll_spec {α : Type} {P : Val α → Val α → Prop} {Q : Loop → Prop} :
    ∀ (ns : List (Node α)), blockHas P ns → blockLoops Q ns → blockOne P (splitAll ns) ∧
      blockLoops Q (splitAll ns) ∧ ∀ env, blockScalars env (splitAll ns) = blockScalars env ns
  | [], _, _ => ⟨trivial, trivial, fun _ => rfl⟩
  | n :: ns, h, hq => by
    obtain ⟨h1, h2, h3⟩ := split_spec n h.1 hq.1
    obtain ⟨h4, h5, h6⟩ := splitAll_spec ns h.2 hq.2
    refine ⟨by rw [splitAll, blockOne_append]; exact ⟨h1, h4⟩,
      by rw [splitAll, blockLoops_append]; exact ⟨h2, h5⟩, fun env => ?_⟩
    rw [splitAll, blockScalars_append, h3, h6]
    rfl
end

/-! ### EquationInductionsExplicitation -/

theorem forValues_upto (n : Nat) : forValues 0 1 ((n : Int) - 1) = Finset.Ico 0 (n : Int) := by
  ext v
  simp only [forValues, zero_lt_one, if_true, Finset.mem_filter, Finset.mem_Icc, Finset.mem_Ico,
    one_dvd, and_true]
  omega

theorem zip_sizes {ds es : List Dim} (h : ds.map Dim.size = es.map Dim.size) :
    ∀ x ∈ ds.zip es, x.1.size = x.2.size := by
  induction ds generalizing es with
  | nil => simp
  | cons d ds ih =>
    cases es with
    | nil => simp
    | cons e es =>
      simp only [List.map_cons, List.cons.injEq] at h
      intro x hx
      rw [List.zip_cons_cons, List.mem_cons] at hx
      rcases hx with rfl | hx
      · exact h.1
      · exact ih h.2 x hx

theorem dimLoop_eq {d e : Dim} (h : d.size = e.size) : dimLoop d e = ⟨0, (d.size : Int) - 1, 1⟩ := by
  unfold dimLoop; rw [h]; split_ifs <;> rfl

theorem dimLoops_values {ds es : List Dim} (h : ds.map Dim.size = es.map Dim.size) :
    ((ds.zip es).map fun (d, e) => dimLoop d e).map loopValues =
      (ds.map Dim.size).map fun n : Nat => Finset.Ico 0 (n : Int) := by
  induction ds generalizing es with
  | nil => simp
  | cons d ds ih =>
    cases es with
    | nil => simp at h
    | cons e es =>
      simp only [List.map_cons, List.cons.injEq] at h
      simp only [List.zip_cons_cons, List.map_cons, ih h.2, dimLoop_eq h.1]
      congr 1
      exact forValues_upto _

theorem explicitate_scalars {α : Type} {lhs rhs : List (Val α)} {env : Point}
    (h : ∀ l r, lhs = [l] → rhs = [r] → SameShape l r) :
    blockScalars env (explicitate env.length lhs rhs) = sidesEquations env lhs rhs := by
  unfold explicitate
  split
  · rename_i l r
    have hs := h l r rfl rfl
    split
    · rename_i ds es h1 h2
      split_ifs with h3
      · unfold SameShape at hs
        rw [h1, h2, Option.map_some, Option.map_some, Option.some.injEq] at hs
        rw [blockScalars_nest, dimLoops_values hs,
          overIndices_points _ env _ (subscripts (ds.map Dim.size)) fun p => mem_subscripts]
        simp only [sidesEquations, List.zip_cons_cons, List.zip_nil_right, List.map_cons,
          List.map_nil, List.sum_cons, List.sum_nil, add_zero, elementwise, h1]
        refine Finset.sum_congr rfl fun p _ => ?_
        simp [blockScalars, nodeScalars, sidesEquations, elementwise, extract]
      · simp [blockScalars, nodeScalars]
    · simp [blockScalars, nodeScalars]
  · simp [blockScalars, nodeScalars]

theorem explicitate_loops {α : Type} {Q : Loop → Prop} {depth : Nat} {l r : Val α}
    (hs : SameShape l r)
    (hq : ∀ ds, l.shape = some ds → ∀ d ∈ ds, Q ⟨0, (d.size : Int) - 1, 1⟩) :
    blockLoops Q (explicitate depth [l] [r]) := by
  unfold explicitate
  simp only
  split
  · rename_i ds es h1 h2
    unfold SameShape at hs
    rw [h1, h2, Option.map_some, Option.map_some, Option.some.injEq] at hs
    split_ifs with h3
    · rw [blockLoops_nest]
      refine ⟨fun x hx => ?_, ⟨trivial, trivial⟩⟩
      obtain ⟨⟨d, e⟩, hde, rfl⟩ := List.mem_map.1 hx
      simp only
      rw [dimLoop_eq (zip_sizes hs _ hde)]
      exact hq ds h1 d (List.of_mem_zip hde).1
    · exact ⟨trivial, trivial⟩
  · exact ⟨trivial, trivial⟩

/-- If the sizes are known, the equation is between scalars. -/
theorem explicitate_one {α : Type} {depth : Nat} {l r : Val α}
    (hs : SameShape l r) (hk : Static l ∧ Static r) :
    blockOne (fun a b => a.shape = none ∧ b.shape = none) (explicitate depth [l] [r]) := by
  unfold explicitate
  simp only
  unfold SameShape at hs
  split
  · rename_i ds es h1 h2
    rw [h1, h2, Option.map_some, Option.map_some, Option.some.injEq] at hs
    rw [if_pos, blockOne_nest]
    · exact ⟨⟨_, _, rfl, rfl, rfl, rfl⟩, trivial⟩
    · refine ⟨by simpa using congrArg List.length hs, ?_⟩
      rw [List.all_eq_true]
      rintro ⟨d, e⟩ hde
      have hd := hk.1 ds h1 d (List.of_mem_zip hde).1
      have he := hk.2 es h2 e (List.of_mem_zip hde).2
      have := zip_sizes hs _ hde
      simp_all [compatible]
  · rename_i h1
    refine ⟨⟨l, r, rfl, rfl, ?_⟩, trivial⟩
    cases hl : l.shape <;> cases hr : r.shape <;> simp_all

mutual
theorem explicit_spec {α : Type} {P : Val α → Val α → Prop} {Q : Loop → Prop}
    (hP : ∀ l r, P l r → SameShape l r)
    (hQ : ∀ l r, P l r → ∀ ds, l.shape = some ds → ∀ d ∈ ds, Q ⟨0, (d.size : Int) - 1, 1⟩) :
    ∀ (n : Node α) (depth : Nat), nodeOne P n → nodeLoops Q n →
      blockLoops Q (explicit depth n) ∧
      ((∀ l r, P l r → Static l ∧ Static r) →
        blockOne (fun a b => a.shape = none ∧ b.shape = none) (explicit depth n)) ∧
      ∀ env : Point, env.length = depth → blockScalars env (explicit depth n) = nodeScalars env n
  | .equation lhs rhs, depth, h, _ => by
    obtain ⟨l, r, rfl, rfl, hp⟩ := h
    refine ⟨explicitate_loops (hP l r hp) (hQ l r hp), fun hk => explicitate_one (hP l r hp) (hk l r hp),
      fun env he => ?_⟩
    subst he
    rw [explicit, nodeScalars]
    exact explicitate_scalars fun l' r' h1 h2 => by
      rw [List.cons.injEq] at h1 h2
      rw [← h1.1, ← h2.1]; exact hP _ _ hp
  | .loop l body, depth, h, hq => by
    obtain ⟨h1, h2, h3⟩ := explicitAll_spec hP hQ body (depth + 1) h hq.2
    refine ⟨⟨⟨hq.1, h1⟩, trivial⟩, fun hk => ⟨h2 hk, trivial⟩, fun env he => ?_⟩
    simp only [explicit, blockScalars, nodeScalars, add_zero]
    refine Finset.sum_congr rfl fun v _ => h3 _ (by simp [he])
theorem explicitAll_spec {α : Type} {P : Val α → Val α → Prop} {Q : Loop → Prop}
    (hP : ∀ l r, P l r → SameShape l r)
    (hQ : ∀ l r, P l r → ∀ ds, l.shape = some ds → ∀ d ∈ ds, Q ⟨0, (d.size : Int) - 1, 1⟩) :
    ∀ (ns : List (Node α)) (depth : Nat), blockOne P ns → blockLoops Q ns →
      blockLoops Q (explicitAll depth ns) ∧
      ((∀ l r, P l r → Static l ∧ Static r) →
        blockOne (fun a b => a.shape = none ∧ b.shape = none) (explicitAll depth ns)) ∧
      ∀ env : Point, env.length = depth →
        blockScalars env (explicitAll depth ns) = blockScalars env ns
  | [], _, _, _ => ⟨trivial, fun _ => trivial, fun _ _ => rfl⟩
  | n :: ns, depth, h, hq => by
    obtain ⟨h1, h2, h3⟩ := explicit_spec hP hQ n depth h.1 hq.1
    obtain ⟨h4, h5, h6⟩ := explicitAll_spec hP hQ ns depth h.2 hq.2
    refine ⟨by rw [explicitAll, blockLoops_append]; exact ⟨h1, h4⟩,
      fun hk => by rw [explicitAll, blockOne_append]; exact ⟨h2 hk, h5 hk⟩, fun env he => ?_⟩
    rw [explicitAll, blockScalars_append, h3 env he, h6 env he]
    rfl
end

/-! ### EquationTemplatesCreation -/

/-- The scalar equations of a block inside loops. -/
def frameScalars {α : Type} (f : List Loop × List (Node α)) : Multiset (α × α) :=
  overIndices (f.1.map loopValues) [] fun e => blockScalars e f.2

/-- The scalar equations of an equation inside loops. -/
def foundScalars {α : Type} (f : List Loop × List (Val α) × List (Val α)) : Multiset (α × α) :=
  overIndices (f.1.map loopValues) [] fun e => sidesEquations e f.2.1 f.2.2

theorem frame_split {α : Type} (loops : List Loop) : ∀ ns : List (Node α),
    frameScalars (loops, ns) = ((equationsOf loops ns).map foundScalars).sum +
      ((loopsOf loops ns).map frameScalars).sum
  | [] => by simp [equationsOf, loopsOf, frameScalars, blockScalars, overIndices_zero]
  | .equation l r :: ns => by
    have ih := frame_split loops ns
    simp only [equationsOf, loopsOf, List.map_cons, List.sum_cons, add_assoc, ← ih]
    simp only [frameScalars, foundScalars, blockScalars, nodeScalars, overIndices_add]
  | .loop l body :: ns => by
    have ih := frame_split loops ns
    simp only [equationsOf, loopsOf, List.map_cons, List.sum_cons]
    rw [add_left_comm, ← ih]
    simp only [frameScalars, blockScalars, nodeScalars, overIndices_add, List.map_append,
      overIndices_append, List.map_cons, List.map_nil, overIndices]

theorem collect_scalars {α : Type} (stack : List (List Loop × List (Node α))) :
    ((collect stack).map foundScalars).sum = (stack.map frameScalars).sum := by
  fun_induction collect stack with
  | case1 => rfl
  | case2 loops body stack ih =>
    rw [List.map_append, List.sum_append, ih, List.map_append, List.sum_append, List.map_reverse,
      List.sum_reverse, ← add_assoc, ← frame_split, List.map_cons, List.sum_cons]

theorem collect_loops {α : Type} {Q : Loop → Prop} (stack : List (List Loop × List (Node α)))
    (h : ∀ f ∈ stack, (∀ l ∈ f.1, Q l) ∧ blockLoops Q f.2) :
    ∀ e ∈ collect stack, ∀ l ∈ e.1, Q l := by
  fun_induction collect stack with
  | case1 => simp
  | case2 loops body stack ih =>
    have h0 := h (loops, body) (by simp)
    have heq : ∀ ns : List (Node α), ∀ e ∈ equationsOf loops ns, e.1 = loops := by
      intro ns
      induction ns with
      | nil => simp [equationsOf]
      | cons n ns ih =>
        intro e he
        cases n with
        | equation l r =>
          rw [equationsOf, List.mem_cons] at he
          rcases he with rfl | he
          · rfl
          · exact ih e he
        | loop l b => exact ih e he
    have hlo : ∀ ns : List (Node α), blockLoops Q ns → ∀ f ∈ loopsOf loops ns,
        (∀ l ∈ f.1, Q l) ∧ blockLoops Q f.2 := by
      intro ns
      induction ns with
      | nil => simp [loopsOf]
      | cons n ns ih =>
        intro hns f hf
        cases n with
        | equation l r => exact ih hns.2 f hf
        | loop l b =>
          rw [loopsOf, List.mem_cons] at hf
          rcases hf with rfl | hf
          · refine ⟨?_, hns.1.2⟩
            intro x hx
            rw [List.mem_append, List.mem_singleton] at hx
            rcases hx with hx | rfl
            · exact h0.1 x hx
            · exact hns.1.1
          · exact ih hns.2 f hf
    intro e he
    rw [List.mem_append] at he
    rcases he with he | he
    · rw [heq body e he]; exact h0.1
    · refine ih ?_ e he
      intro f hf
      rw [List.mem_append, List.mem_reverse] at hf
      rcases hf with hf | hf
      · exact hlo body h0.2 f hf
      · exact h f (by simp [hf])

theorem collect_one {α : Type} {P : Val α → Val α → Prop}
    (stack : List (List Loop × List (Node α))) (h : ∀ f ∈ stack, blockOne P f.2) :
    ∀ e ∈ collect stack, ∃ l r, e.2.1 = [l] ∧ e.2.2 = [r] ∧ P l r := by
  fun_induction collect stack with
  | case1 => simp
  | case2 loops body stack ih =>
    have h0 := h (loops, body) (by simp)
    have heq : ∀ ns : List (Node α), blockOne P ns → ∀ e ∈ equationsOf loops ns,
        ∃ l r, e.2.1 = [l] ∧ e.2.2 = [r] ∧ P l r := by
      intro ns
      induction ns with
      | nil => simp [equationsOf]
      | cons n ns ih =>
        intro hns e he
        cases n with
        | equation l r =>
          rw [equationsOf, List.mem_cons] at he
          rcases he with rfl | he
          · exact hns.1
          · exact ih hns.2 e he
        | loop l b => exact ih hns.2 e he
    have hlo : ∀ ns : List (Node α), blockOne P ns → ∀ f ∈ loopsOf loops ns, blockOne P f.2 := by
      intro ns
      induction ns with
      | nil => simp [loopsOf]
      | cons n ns ih =>
        intro hns f hf
        cases n with
        | equation l r => exact ih hns.2 f hf
        | loop l b =>
          rw [loopsOf, List.mem_cons] at hf
          rcases hf with rfl | hf
          · exact hns.1
          · exact ih hns.2 f hf
    intro e he
    rw [List.mem_append] at he
    rcases he with he | he
    · exact heq body h0 e he
    · refine ih ?_ e he
      intro f hf
      rw [List.mem_append, List.mem_reverse] at hf
      rcases hf with hf | hf
      · exact hlo body h0 f hf
      · exact h f (by simp [hf])

/-! ### The ranges of the loops -/

/-- The loop goes up, and one more step does not overflow. -/
def LoopUp (l : Loop) : Prop := 0 < l.step ∧ l.last + l.step ≤ maxInt

/-- The ranges are disjoint, and those of a range of integers. -/
structure RangesOf (rs : List Range) (s : Finset Int) : Prop where
  cover : ∀ v, v ∈ s ↔ ∃ r ∈ rs, r.b ≤ v ∧ v < r.e
  disj : rs.Pairwise fun a b => ∀ v, ¬ ((a.b ≤ v ∧ v < a.e) ∧ (b.b ≤ v ∧ v < b.e))

theorem mem_forValues {first step last v : Int} (h : 0 < step) :
    v ∈ forValues first step last ↔ first ≤ v ∧ v ≤ last ∧ step ∣ v - first := by
  simp [forValues, h, and_assoc]

theorem stepRanges_spec {step last : Int} (h : 0 < step) (hm : last + step ≤ maxInt)
    (index : Int) : ∃ rs, stepRanges step last index = some rs ∧
      RangesOf rs (forValues index step last) ∧ (∀ r ∈ rs, r.e = r.b + 1 ∧ index ≤ r.b) ∧
      (index ≤ last → rs ≠ []) := by
  fun_induction stepRanges step last index with
  | case1 index h1 h2 ih =>
    obtain ⟨rs, hrs, hc, hv, -⟩ := ih
    refine ⟨⟨index, index + 1⟩ :: rs, by simp [hrs], ⟨fun v => ?_, ?_⟩, ?_, by simp⟩
    · rw [mem_forValues h]
      simp only [List.mem_cons, exists_eq_or_imp, ← hc.cover, mem_forValues h]
      constructor
      · rintro ⟨h3, h4, k, hk⟩
        rcases eq_or_lt_of_le h3 with rfl | h5
        · left; omega
        · right
          have hk0 : 0 < k := by
            by_contra hk0
            have : step * k ≤ 0 := by nlinarith
            omega
          refine ⟨by nlinarith, h4, k - 1, ?_⟩
          rw [Int.mul_sub, mul_one]; omega
      · rintro (h3 | ⟨h3, h4, k, hk⟩)
        · have : v = index := by omega
          subst this
          exact ⟨le_refl _, by omega, by simp⟩
        · exact ⟨by omega, h4, k + 1, by rw [Int.mul_add, mul_one]; omega⟩
    · rw [List.pairwise_cons]
      refine ⟨fun r hr v hv' => ?_, hc.disj⟩
      have := hv r hr
      simp only at hv'
      omega
    · intro r hr
      rcases List.mem_cons.1 hr with rfl | hr
      · exact ⟨rfl, le_refl _⟩
      · have := hv r hr
        omega
  | case2 index h1 h2 => exact absurd ⟨h, by omega⟩ h2
  | case3 index h1 =>
    refine ⟨[], rfl, ⟨fun v => ?_, .nil⟩, by simp, by omega⟩
    rw [mem_forValues h]
    simp only [List.not_mem_nil, false_and, exists_false, iff_false]
    omega

theorem loopRanges_spec {l : Loop} (h : LoopUp l) : ∃ rs, loopRanges l = some rs ∧
    RangesOf rs (loopValues l) ∧ ((loopValues l).Nonempty → rs ≠ [] ∧ ∀ r ∈ rs, r.b < r.e) := by
  obtain ⟨h1, h2⟩ := h
  unfold loopRanges
  rw [if_neg (by omega)]
  split_ifs with hs
  · refine ⟨_, rfl, ⟨fun v => ?_, by simp⟩, fun ⟨v, hv⟩ => ⟨by simp, ?_⟩⟩
    · rw [loopValues, mem_forValues h1, hs]
      simp
      omega
    · rw [loopValues, mem_forValues h1] at hv
      simp
      omega
  · obtain ⟨rs, h3, h4, h5, h6⟩ := stepRanges_spec h1 h2 l.first
    refine ⟨rs, h3, h4, fun ⟨v, hv⟩ => ⟨h6 ?_, fun r hr => ?_⟩⟩
    · rw [loopValues, mem_forValues h1] at hv; omega
    · have := h5 r hr; omega

theorem mem_combinations : ∀ {rss : List (List Range)}, rss ≠ [] → ∀ {b : Box},
    b ∈ combinations rss ↔ List.Forall₂ (fun r rs => r ∈ rs) b rss
  | [], h, _ => absurd rfl h
  | [rs], _, b => by
    simp only [combinations, List.mem_map, List.forall₂_cons_right_iff, List.forall₂_nil_right_iff]
    constructor
    · rintro ⟨r, hr, rfl⟩; exact ⟨r, [], hr, rfl, rfl⟩
    · rintro ⟨r, _, hr, rfl, rfl⟩; exact ⟨r, hr, rfl⟩
  | rs :: rs' :: rest, _, b => by
    simp only [combinations, List.mem_flatMap, List.mem_map]
    rw [List.forall₂_cons_right_iff]
    constructor
    · rintro ⟨r, hr, q, hq, rfl⟩
      exact ⟨r, q, hr, (mem_combinations (by simp)).1 hq, rfl⟩
    · rintro ⟨r, q, hr, hq, rfl⟩
      exact ⟨r, hr, q, (mem_combinations (by simp)).2 hq, rfl⟩

theorem combinations_cover : ∀ {rss : List (List Range)} {ss : List (Finset Int)},
    rss ≠ [] → List.Forall₂ RangesOf rss ss → ∀ p,
    (∃ b ∈ combinations rss, InB p b) ↔ List.Forall₂ (fun v s => v ∈ s) p ss := by
  intro rss ss hne h p
  have key : ∀ {rss : List (List Range)} {ss : List (Finset Int)}, List.Forall₂ RangesOf rss ss →
      ∀ p, (∃ b, List.Forall₂ (fun r rs => r ∈ rs) b rss ∧ InB p b) ↔
        List.Forall₂ (fun v s => v ∈ s) p ss := by
    intro rss ss h
    induction h with
    | nil =>
      intro p
      simp only [List.forall₂_nil_right_iff, exists_eq_left]
      constructor
      · intro h; cases h; rfl
      · rintro rfl; exact .nil
    | cons hc _ ih =>
      intro p
      rw [List.forall₂_cons_right_iff]
      constructor
      · rintro ⟨b, hb, hp⟩
        obtain ⟨r, q, hr, hq, rfl⟩ := List.forall₂_cons_right_iff.1 hb
        cases hp with
        | cons h1 h2 =>
          rename_i v p'
          exact ⟨v, p', (hc.cover v).2 ⟨r, hr, h1⟩, (ih p').1 ⟨q, hq, h2⟩, rfl⟩
      · rintro ⟨v, q, hv, hq, rfl⟩
        obtain ⟨r, hr, h1⟩ := (hc.cover v).1 hv
        obtain ⟨b, hb, h2⟩ := (ih q).2 hq
        exact ⟨r :: b, .cons hr hb, .cons h1 h2⟩
  simp only [mem_combinations hne]
  exact key h p

theorem combinations_disj : ∀ {rss : List (List Range)} {ss : List (Finset Int)},
    List.Forall₂ RangesOf rss ss → (combinations rss).Pairwise Disj
  | [], _, _ => .nil
  | [rs], _, .cons hc _ => by
    simp only [combinations, List.pairwise_map]
    refine hc.disj.imp fun {a b} h p hp => ?_
    obtain ⟨h1, h2⟩ := hp
    cases h1 with
    | cons x1 x2 =>
      cases h2 with
      | cons y1 y2 => exact h _ ⟨x1, y1⟩
  | rs :: rs' :: rest, _, .cons hc hr => by
    have ih := combinations_disj hr
    simp only [combinations]
    rw [List.pairwise_flatMap]
    refine ⟨fun r _ => ?_, hc.disj.imp fun {a b} h => ?_⟩
    · rw [List.pairwise_map]
      refine ih.imp fun {x y} hxy p hp => ?_
      obtain ⟨h1, h2⟩ := hp
      cases h1 with
      | cons x1 x2 =>
        cases h2 with
        | cons y1 y2 => exact hxy _ ⟨x2, y2⟩
    · intro x hx y hy p hp
      obtain ⟨q, -, rfl⟩ := List.mem_map.1 hx
      obtain ⟨q', -, rfl⟩ := List.mem_map.1 hy
      obtain ⟨h1, h2⟩ := hp
      cases h1 with
      | cons x1 x2 =>
        cases h2 with
        | cons y1 y2 => exact h _ ⟨x1, y1⟩

end Marco.Templ
