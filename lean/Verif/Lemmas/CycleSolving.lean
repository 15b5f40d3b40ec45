import Verif.Props.C75_Transformation
import Verif.Spec.CycleSolving

/-!
# Lemmas on the solution of cycles by substitution
-/

namespace Marco.Props
open Marco Spec IndexSet DimAccess AccessFn Subst

theorem build_affineExpr (e : AExpr) : (DimAccess.build e).affineExpr = some e := by
  induction e with
  | const v => rfl
  | dim d => rfl
  | add a b iha ihb => simp [DimAccess.build, affineExpr, iha, ihb]
  | mul a b iha ihb => simp [DimAccess.build, affineExpr, iha, ihb]
  | floorDiv a b iha ihb => simp [DimAccess.build, affineExpr, iha, ihb]

theorem mapSubscript_affine (ts : List AExpr) (a : DimAccess) :
    (mapSubscript ts a).affineExpr = a.affineExpr.map (AExpr.subst ts) := by
  induction a with
  | const v => rfl
  | dim d => simp only [mapSubscript, affineExpr, build_affineExpr, Option.map_some]; rfl
  | add a b iha ihb =>
    simp only [mapSubscript, affineExpr, iha, ihb]
    cases a.affineExpr <;> cases b.affineExpr <;> rfl
  | sub a b iha ihb =>
    simp only [mapSubscript, affineExpr, iha, ihb]
    cases a.affineExpr <;> cases b.affineExpr <;> rfl
  | mul a b iha ihb =>
    simp only [mapSubscript, affineExpr, iha, ihb]
    cases a.affineExpr <;> cases b.affineExpr <;> rfl
  | div a b iha ihb =>
    simp only [mapSubscript, affineExpr, iha, ihb]
    cases a.affineExpr <;> cases b.affineExpr <;> rfl
  | range r => rfl
  | indices k s d l => rfl

/-- The element accessed, as computed and as specified. -/
theorem element_reaches {as : List DimAccess} {p r : Point} :
    element as p = some r ↔ Reaches as p r := by
  unfold element Reaches
  induction as generalizing r with
  | nil => simp [eq_comm]
  | cons a as ih =>
    rw [List.mapM_cons]
    constructor
    · intro h
      simp only [Option.bind_eq_bind, Option.bind_eq_some_iff, Option.pure_def,
        Option.some.injEq] at h
      obtain ⟨v, ⟨e, h1, h2⟩, vs, h3, rfl⟩ := h
      exact .cons ⟨e, h1, h2⟩ (ih.1 h3)
    · intro h
      cases h with
      | cons h1 h2 =>
        obtain ⟨e, e1, e2⟩ := h1
        simp [e1, e2, ih.2 h2]

theorem element_subst {ts : List AExpr} {p q : Point} (hq : Vals ts p q) {as : List DimAccess}
    (h : PlainAccess ts.length as) : element (as.map (mapSubscript ts)) p = element as q := by
  unfold element
  induction as with
  | nil => rfl
  | cons a as ih =>
    obtain ⟨e, e1, -, e3⟩ := h a (by simp)
    rw [List.map_cons, List.mapM_cons, List.mapM_cons, ih fun b hb => h b (by simp [hb])]
    simp [mapSubscript_affine, e1, AExpr.eval_subst hq e3]

theorem value_subst {α : Type} (D : Domain α) (ρ : Nat → Point → α) {ts : List AExpr} {p q : Point}
    (hq : Vals ts p q) {x : Expr} (h : InScope ts.length x) :
    exprValue D ρ p (x.mapInds ts) = exprValue D ρ q x := by
  induction x with
  | var v subs =>
    simp only [Expr.mapInds, exprValue]
    have := element_subst hq h
    unfold element at this
    rw [this]
  | ind e =>
    simp only [Expr.mapInds, exprValue]
    rw [AExpr.eval_subst hq h.2]
  | cst c => rfl
  | op f a b iha ihb => simp only [Expr.mapInds, exprValue, iha h.1, ihb h.2]

/-- Replacing a part by an expression of the same value. -/
theorem value_put {α : Type} (D : Domain α) (ρ : Nat → Point → α) (p : Point) {x y : Expr}
    (hxy : exprValue D ρ p x = exprValue D ρ p y) : ∀ (ss : List Bool) (e : Expr),
    e.at ss = some x → exprValue D ρ p (e.put ss y) = exprValue D ρ p e
  | [], e, h => by
    have : e = x := by
      cases e <;> simpa [Expr.at] using h
    subst this
    cases e <;> exact hxy.symm
  | s :: ss, .op f a b, h => by
    simp only [Expr.at] at h
    simp only [Expr.put]
    cases s
    · simp only [Bool.false_eq_true, if_false] at h ⊢
      simp only [exprValue, value_put D ρ p hxy ss a h]
    · simp only [if_true] at h ⊢
      simp only [exprValue, value_put D ρ p hxy ss b h]
  | s :: ss, .var v l, h => by simp [Expr.at] at h
  | s :: ss, .ind v, h => by simp [Expr.at] at h
  | s :: ss, .cst v, h => by simp [Expr.at] at h

theorem eval_take {e : AExpr} {n : Nat} (h : e.Below n) (p : Point) :
    e.eval (p.take n) = e.eval p := by
  induction e with
  | const v => rfl
  | dim d =>
    simp only [AExpr.eval]
    rw [List.getElem?_take]
    simp only [AExpr.Below] at h
    simp [h]
  | add a b iha ihb => simp only [AExpr.eval, iha h.1, ihb h.2]
  | mul a b iha ihb => simp only [AExpr.eval, iha h.1, ihb h.2]
  | floorDiv a b iha ihb => simp only [AExpr.eval, iha h.1, ihb h.2]

theorem reaches_take {n : Nat} {as : List DimAccess} (h : PlainAccess n as) {p r : Point} :
    Reaches as (p.take n) r ↔ Reaches as p r := by
  unfold Reaches
  induction as generalizing r with
  | nil => constructor <;> (intro h; cases h; exact .nil)
  | cons a as ih =>
    obtain ⟨e, e1, -, e3⟩ := h a (by simp)
    have ih' := @ih (fun b hb => h b (by simp [hb]))
    constructor
    · intro h
      cases h with
      | cons h1 h2 =>
        obtain ⟨e', a1, a2⟩ := h1
        rw [e1] at a1
        cases a1
        exact .cons ⟨e, e1, by rw [eval_take e3] at a2; exact a2⟩ (ih'.1 h2)
    · intro h
      cases h with
      | cons h1 h2 =>
        obtain ⟨e', a1, a2⟩ := h1
        rw [e1] at a1
        cases a1
        exact .cons ⟨e, e1, by rw [eval_take e3]; exact a2⟩ (ih'.2 h2)

theorem eval_total {e : AExpr} {n : Nat} (h : e.NoDiv) (hb : e.Below n) {p : Point}
    (hp : n ≤ p.length) : ∃ v, e.eval p = some v := by
  induction e with
  | const v => exact ⟨v, rfl⟩
  | dim d =>
    simp only [AExpr.Below] at hb
    exact ⟨p[d], by simp [AExpr.eval]⟩
  | add a b iha ihb =>
    obtain ⟨x, hx⟩ := iha h.1 hb.1
    obtain ⟨y, hy⟩ := ihb h.2 hb.2
    exact ⟨x + y, by simp [AExpr.eval, hx, hy]⟩
  | mul a b iha ihb =>
    obtain ⟨x, hx⟩ := iha h.1 hb.1
    obtain ⟨y, hy⟩ := ihb h.2 hb.2
    exact ⟨x * y, by simp [AExpr.eval, hx, hy]⟩
  | floorDiv a b _ _ => exact h.elim

theorem plain_reaches {n : Nat} {as : List DimAccess} (h : PlainAccess n as) {p : Point}
    (hp : n ≤ p.length) : ∃ r, Reaches as p r := by
  unfold Reaches
  induction as with
  | nil => exact ⟨[], .nil⟩
  | cons a as ih =>
    obtain ⟨e, e1, e2, e3⟩ := h a (by simp)
    obtain ⟨v, hv⟩ := eval_total e2 e3 hp
    obtain ⟨r, hr⟩ := ih fun b hb => h b (by simp [hb])
    exact ⟨v :: r, .cons ⟨e, e1, hv⟩ hr⟩

theorem reaches_unique {as : List DimAccess} {p r r' : Point} (h : Reaches as p r)
    (h' : Reaches as p r') : r = r' := by
  rw [← element_reaches] at h h'
  rw [h] at h'
  exact Option.some.inj h'

theorem plain_nil_scalar {as : List DimAccess} (h : PlainAccess 0 as) {p r : Point} :
    Reaches as [] r ↔ Reaches as p r := by
  rw [← reaches_take h (p := p)]
  simp

/-! ### The replacement of an access -/

/-- The access at the path replaced by the right-hand side of an equation that holds at the iteration
that writes the accessed element: the new equation holds exactly if the old one does. -/
theorem replaceAccess_holds {α : Type} (D : Domain α) (ρ : Nat → Point → α) (S : Simplifier)
    (hS : Tidy S) {t x t' : Template} {path : Path} {v : Nat} {subs ws : List DimAccess}
    (hat : t.at path = some (.var v subs)) (hsub : PlainAccess t.inds subs)
    (hlhs : x.lhs = .var v ws) (hws : PlainAccess x.inds ws) (hrhs : InScope x.inds x.rhs)
    (ht : replaceAccess S t path x = .done t') {p q r : Point} (hp : t.inds ≤ p.length)
    (hq : q.length = x.inds) (h1 : Reaches subs p r) (h2 : Reaches ws q r) (hx : HoldsAt D ρ x q) :
    HoldsAt D ρ t' p ↔ HoldsAt D ρ t p := by
  unfold replaceAccess at ht
  simp only [hat, hlhs] at ht
  obtain ⟨es, a1, -, a3, a4⟩ := build_plain S hS hws
  obtain ⟨ed, b1, -, b3, b4⟩ := build_plain S hS hsub
  rw [a1, b1] at ht
  split at ht
  · simp at ht
  · rename_i f hf
    obtain ⟨t1, -, u, u1, u2, -, u4⟩ := transformation_vals S hS a3 b3 hf
    have hv := u4 p q r hp hq (b4 p r hp h1) (a4 q r hq.ge h2)
    by_cases hc : (!f.isAffine || decide (f.affineMap.results.length < x.inds)) = true
    · rw [if_pos hc] at ht
      simp at ht
    · rw [if_neg hc] at ht
      have hlen : x.inds ≤ f.affineMap.results.length := by
        simp only [t1, Bool.not_true, Bool.false_or, decide_eq_true_eq] at hc
        omega
      have hul := List.count_le_length (a := true) (l := u)
      rw [select_all q u (by rw [hq, u1]) (all_of_count u1 (by omega))] at hv
      have htake : f.affineMap.results.take x.inds = f.affineMap.results :=
        List.take_of_length_le (by omega)
      rw [htake] at ht
      have hval : exprValue D ρ p (.var v subs) =
          exprValue D ρ p (x.rhs.mapInds f.affineMap.results) := by
        rw [value_subst D ρ hv (by rw [show f.affineMap.results.length = x.inds by omega]; exact hrhs)]
        obtain ⟨y, y1, y2⟩ := hx
        rw [y2, ← y1, hlhs]
        have e1 := element_reaches.2 h1
        have e2 := element_reaches.2 h2
        unfold element at e1 e2
        simp only [exprValue, e1, e2]
      have htt := (Replaced.done.inj ht).symm
      subst htt
      unfold Template.at at hat
      unfold HoldsAt
      by_cases hr : path.right = true
      · rw [if_pos hr] at hat
        simp only [if_pos hr, value_put D ρ p hval _ _ hat]
      · rw [if_neg hr] at hat
        simp only [if_neg hr, value_put D ρ p hval _ _ hat]

theorem replaceAccess_inds {S : Simplifier} {t x t' : Template} {path : Path}
    (ht : replaceAccess S t path x = .done t') : t'.inds = t.inds := by
  unfold replaceAccess at ht
  split at ht
  · split at ht
    · simp at ht
    · split_ifs at ht with hc hr
      · rw [← Replaced.done.inj ht]
      · rw [← Replaced.done.inj ht]
  · simp at ht

/-! ### The cycle -/

/-- An equation made of an equation of the cycle. -/
structure MadeOf (c : CyclicEq) (n : Inst) : Prop where
  writes : n.writes = c.eq.writes
  written : n.written = c.eq.written
  inds : n.tmpl.inds = c.eq.tmpl.inds
  sub : n.indices ⊆ c.eq.indices
  some : c.eq.tmpl.inds ≠ 0 → ∃ q ∈ n.indices, q ∈ c.indices

theorem mem_iterations {op : Inst} {p : Point} : p ∈ iterations op ↔
    (op.tmpl.inds = 0 ∧ p = []) ∨ (op.tmpl.inds ≠ 0 ∧ p ∈ op.indices) := by
  unfold iterations
  by_cases h : op.tmpl.inds = 0
  · simp [h]
  · simp [h]

/-- The iterations that read an element written by the equation: there are some, and each of them
reads an element written at an iteration of the equation. -/
theorem readingIndices_spec {c d : CyclicEq} {w : Inst} (hc : PartOk c) (hd : PartOk d)
    (hw : MadeOf d w) {subs : List DimAccess}
    (hlink : ∀ q ∈ d.indices, ∃ p ∈ c.indices, ∃ r, Reaches subs p r ∧ Reaches d.eq.written q r) :
    let R := readingIndices subs (writtenBy d.eq.written d.eq.tmpl.inds w.indices) c.indices
    R ≠ ∅ ∧ R ⊆ c.indices ∧ ∀ p ∈ R, ∃ q ∈ iterations w, q.length = d.eq.tmpl.inds ∧
      ∃ r, Reaches subs p r ∧ Reaches d.eq.written q r := by
  intro R
  have hlen : ∀ q ∈ iterations w, q.length = d.eq.tmpl.inds := by
    intro q hq
    rcases mem_iterations.1 hq with ⟨h0, rfl⟩ | ⟨-, h⟩
    · rw [← hw.inds, h0]; rfl
    · exact hd.eq.rank q (hw.sub h)
  obtain ⟨q0, hq0, p0, hp0, r0, e1, e2⟩ : ∃ q0 ∈ iterations w, ∃ p0 ∈ c.indices, ∃ r0,
      Reaches subs p0 r0 ∧ Reaches d.eq.written q0 r0 := by
    by_cases h0 : d.eq.tmpl.inds = 0
    · have hm : ([0] : Point) ∈ d.indices := by rw [hd.scalar h0]; simp
      obtain ⟨p0, hp0, r0, e1, e2⟩ := hlink _ hm
      have hpl := hd.eq.written
      rw [h0] at hpl
      exact ⟨[], mem_iterations.2 (.inl ⟨by rw [hw.inds, h0], rfl⟩), p0, hp0, r0, e1,
        (plain_nil_scalar hpl).2 e2⟩
    · obtain ⟨q, hq, hqd⟩ := hw.some h0
      obtain ⟨p0, hp0, r0, e1, e2⟩ := hlink _ hqd
      exact ⟨q, mem_iterations.2 (.inr ⟨by rw [hw.inds]; exact h0, hq⟩), p0, hp0, r0, e1, e2⟩
  by_cases hn : d.eq.written = []
  · have hR : R = c.indices := by
      show readingIndices _ _ _ = _
      unfold readingIndices writtenBy
      rw [if_pos hn, if_pos rfl]
    rw [hR]
    refine ⟨hc.nonempty, Finset.Subset.refl _, fun p _ => ⟨q0, hq0, hlen q0 hq0, [], ?_, ?_⟩⟩
    · rw [hn] at e2
      cases e2
      cases e1
      exact .nil
    · rw [hn]; exact .nil
  · have hW : ∀ r, r ∈ writtenBy d.eq.written d.eq.tmpl.inds w.indices ↔
        ∃ q ∈ iterations w, Reaches d.eq.written q r := by
      intro r
      unfold writtenBy
      rw [if_neg hn, Finset.mem_biUnion]
      have hit : (if d.eq.tmpl.inds = 0 then {[]} else w.indices) = iterations w := by
        unfold iterations
        rw [hw.inds]
      rw [hit]
      constructor
      · rintro ⟨q, h1, h2⟩
        refine ⟨q, h1, ?_⟩
        rw [← element_reaches]
        cases he : element d.eq.written q with
        | none => rw [he] at h2; simp at h2
        | some r' =>
          rw [he] at h2
          simp only [Option.elim_some, Finset.mem_singleton] at h2
          rw [h2]
      · rintro ⟨q, h1, h2⟩
        refine ⟨q, h1, ?_⟩
        rw [element_reaches.2 h2]
        simp
    have hne : writtenBy d.eq.written d.eq.tmpl.inds w.indices ≠ ∅ :=
      Finset.ne_empty_of_mem ((hW r0).2 ⟨q0, hq0, e2⟩)
    have hR : ∀ p, p ∈ R ↔ p ∈ c.indices ∧ ∃ r, Reaches subs p r ∧
        ∃ q ∈ iterations w, Reaches d.eq.written q r := by
      intro p
      show p ∈ readingIndices _ _ _ ↔ _
      unfold readingIndices
      rw [if_neg hne, Finset.mem_filter]
      refine and_congr_right fun _ => exists_congr fun r => ?_
      rw [hW r, Option.mem_def, element_reaches]
    refine ⟨Finset.ne_empty_of_mem ((hR p0).2 ⟨hp0, r0, e1, q0, hq0, e2⟩),
      fun p hp => ((hR p).1 hp).1, fun p hp => ?_⟩
    obtain ⟨-, r, f1, q, hq, f2⟩ := (hR p).1 hp
    exact ⟨q, hq, hlen q hq, r, f1, f2⟩

theorem substituteOne_spec {α : Type} (D : Domain α) (S : Simplifier) (hS : Tidy S)
    {rep : Finset Point → List (Finset Point)} (hrep : StoredRanges rep)
    {explicitate : Inst → Option Template} (hx : ExplicitOk D explicitate) {c d : CyclicEq} {w : Inst}
    (hc : PartOk c) (hd : PartOk d) (hw : MadeOf d w) {subs : List DimAccess}
    (hat : c.eq.tmpl.at c.read = some (.var d.eq.writes subs))
    (hsub : PlainAccess c.eq.tmpl.inds subs)
    (hlink : ∀ q ∈ d.indices, ∃ p ∈ c.indices, ∃ r, Reaches subs p r ∧ Reaches d.eq.written q r)
    {l : List Inst} (h : substituteOne S rep explicitate c w = some l) :
    l ≠ [] ∧ ∀ n ∈ l, MadeOf c n ∧ ∀ ρ, Holds D ρ w → ∀ p ∈ iterations n,
      p ∈ iterations c.eq ∧ (HoldsAt D ρ n.tmpl p ↔ HoldsAt D ρ c.eq.tmpl p) := by
  unfold substituteOne at h
  split at h
  · simp at h
  · rename_i x hxw
    have hxi := hx.inds _ _ hxw
    have hxl := hx.lhs _ _ hxw
    have hxr := hx.rhs _ _ hxw
    rw [hw.inds] at hxi
    rw [hw.writes, hw.written] at hxl
    simp only [hxl, hat, hxi] at h
    obtain ⟨r1, r2, r3⟩ := readingIndices_spec hc hd hw hlink
    revert r1 r2 r3 h
    generalize readingIndices subs (writtenBy d.eq.written d.eq.tmpl.inds w.indices) c.indices = R
    intro h r1 r2 r3
    unfold cloneWithReplacedAccess at h
    rw [if_neg r1] at h
    split at h
    · simp at h
    · simp at h
    · rename_i t ht
      rw [if_neg r1] at h
      have hl := (Option.some.inj h).symm
      subst hl
      refine ⟨?_, ?_⟩
      · obtain ⟨p, hp⟩ := Finset.nonempty_iff_ne_empty.2 r1
        obtain ⟨b, hb, -⟩ := (hrep.union R p).1 hp
        intro hnil
        rw [List.map_eq_nil_iff.1 hnil] at hb
        simp at hb
      intro n hn
      obtain ⟨b, hb, rfl⟩ := List.mem_map.1 hn
      have b2 := hrep.nonempty _ _ hb
      have b1 : b ⊆ R := fun p hp => (hrep.union R p).2 ⟨b, hb, hp⟩
      have hti := replaceAccess_inds ht
      have key : ∀ ρ, Holds D ρ w → ∀ p ∈ R, ∀ p', c.eq.tmpl.inds ≤ p'.length →
          (∀ r, Reaches subs p r → Reaches subs p' r) →
          (HoldsAt D ρ t p' ↔ HoldsAt D ρ c.eq.tmpl p') := by
        intro ρ hρ p hp p' hp' hpp
        obtain ⟨q, q1, q2, r, e1, e2⟩ := r3 p hp
        exact replaceAccess_holds D ρ S hS hat hsub hxl (by rw [hxi]; exact hd.eq.written) hxr ht hp'
          (by rw [hxi]; exact q2) (hpp r e1) e2 (hx.holds _ _ ρ q hxw (hρ q q1))
      by_cases h0 : c.eq.tmpl.inds = 0
      · have hce := hc.eq.empty.1 h0
        refine ⟨⟨rfl, rfl, hti, by simp [hce], fun h => absurd h0 h⟩, ?_⟩
        intro ρ hρ p hp
        have hp0 : p = [] := by
          rcases mem_iterations.1 hp with ⟨-, h⟩ | ⟨h, -⟩
          · exact h
          · exact absurd (hti.trans h0) h
        subst hp0
        refine ⟨mem_iterations.2 (.inl ⟨h0, rfl⟩), ?_⟩
        obtain ⟨p1, hp1⟩ := Finset.nonempty_iff_ne_empty.2 r1
        refine key ρ hρ p1 hp1 [] (by simp [h0]) fun r hr => ?_
        rw [h0] at hsub
        exact (plain_nil_scalar hsub).2 hr
      · have hce : c.eq.indices ≠ ∅ := fun h => h0 (hc.eq.empty.2 h)
        have hsubs := hc.sub h0
        refine ⟨⟨rfl, rfl, hti, ?_, fun _ => ?_⟩, ?_⟩
        · simp only [if_neg hce]
          exact fun q hq => hsubs (r2 (b1 hq))
        · simp only [if_neg hce]
          obtain ⟨q, hq⟩ := Finset.nonempty_iff_ne_empty.2 b2
          exact ⟨q, hq, r2 (b1 hq)⟩
        · intro ρ hρ p hp
          have hpb : p ∈ b := by
            rcases mem_iterations.1 hp with ⟨h, -⟩ | ⟨-, h⟩
            · exact absurd (hti.symm.trans h) h0
            · simpa only [if_neg hce] using h
          have hpc := hsubs (r2 (b1 hpb))
          exact ⟨mem_iterations.2 (.inr ⟨h0, hpc⟩), key ρ hρ p (b1 hpb) p (hc.eq.rank p hpc).ge
            fun r hr => hr⟩

theorem substituteAll_mem {S : Simplifier} {rep : Finset Point → List (Finset Point)}
    {explicitate : Inst → Option Template} {c : CyclicEq} {ws : List Inst} {n : Inst}
    (h : n ∈ (substituteAll S rep explicitate c ws).1) :
    ∃ w ∈ ws, ∃ l, substituteOne S rep explicitate c w = some l ∧ n ∈ l := by
  induction ws with
  | nil => simp [substituteAll] at h
  | cons w ws ih =>
    unfold substituteAll at h
    split at h
    · simp at h
    · rename_i l hl
      simp only [List.mem_append] at h
      rcases h with h | h
      · exact ⟨w, by simp, l, hl, h⟩
      · obtain ⟨w', h1, l', h2, h3⟩ := ih h
        exact ⟨w', by simp [h1], l', h2, h3⟩

/-- The equations made for a cycle, whether it is solved or not. -/
theorem solveCycle_spec {α : Type} (D : Domain α) (S : Simplifier) (hS : Tidy S)
    {rep : Finset Point → List (Finset Point)} (hrep : StoredRanges rep)
    {explicitate : Inst → Option Template} (hx : ExplicitOk D explicitate) :
    ∀ (c : CyclicEq) (cs : List CyclicEq), (∀ d ∈ c :: cs, PartOk d) → Linked (c :: cs) →
    ((solveCycle S rep explicitate (c :: cs)).2 = true →
      (solveCycle S rep explicitate (c :: cs)).1 ≠ []) ∧
    ∀ n ∈ (solveCycle S rep explicitate (c :: cs)).1, MadeOf c n ∧
      ∀ ρ, (∀ d ∈ cs, Holds D ρ d.eq) → ∀ p ∈ iterations n,
        p ∈ iterations c.eq ∧ (HoldsAt D ρ n.tmpl p ↔ HoldsAt D ρ c.eq.tmpl p)
  | c, [], hp, _ => by
    refine ⟨fun _ => by simp [solveCycle], fun n hn => ?_⟩
    simp only [solveCycle, List.mem_singleton] at hn
    subst hn
    have hc := hp c (by simp)
    refine ⟨⟨rfl, rfl, rfl, Finset.Subset.refl _, fun h => ?_⟩, fun ρ _ p hp => ⟨hp, Iff.rfl⟩⟩
    obtain ⟨q, hq⟩ := Finset.nonempty_iff_ne_empty.2 hc.nonempty
    exact ⟨q, hc.sub h hq, hq⟩
  | c, d :: cs, hp, hl => by
    rw [Linked] at hl
    obtain ⟨⟨subs, l1, l2, l3⟩, hl'⟩ := hl
    have ih := solveCycle_spec D S hS hrep hx d cs (fun e he => hp e (by simp [he])) hl'
    unfold solveCycle
    rcases hsc : solveCycle S rep explicitate (d :: cs) with ⟨ws, ok⟩
    rw [hsc] at ih
    obtain ⟨ih1, ih2⟩ := ih
    cases ok with
    | false => simp
    | true =>
      simp only [if_true] at ih1 ih2 ⊢
      refine ⟨fun hok => ?_, fun n hn => ?_⟩
      · cases ws with
        | nil => exact absurd rfl (ih1 trivial)
        | cons w ws =>
          unfold substituteAll at hok ⊢
          split
          · rename_i h; rw [h] at hok; simp at hok
          · rename_i l h
            have := (substituteOne_spec D S hS hrep hx (hp c (by simp)) (hp d (by simp))
              (ih2 w (by simp)).1 l1 l2 l3 h).1
            simp [this]
      · obtain ⟨w, hw, l, h1, h2⟩ := substituteAll_mem hn
        obtain ⟨w1, w2⟩ := ih2 w hw
        obtain ⟨n1, n2⟩ := (substituteOne_spec D S hS hrep hx (hp c (by simp)) (hp d (by simp)) w1 l1
          l2 l3 h1).2 n h2
        refine ⟨n1, fun ρ hρ p hp' => n2 ρ (fun q hq => ?_) p hp'⟩
        obtain ⟨q1, q2⟩ := w2 ρ (fun e he => hρ e (by simp [he])) q hq
        exact q2.2 (hρ d (by simp) q q1)

/-! ### The iterations -/

/-- The equations of the SCC that are not to be erased. -/
def live (st : State) : List Inst := st.ops.filter fun op => !st.erased.contains op.id

theorem mem_live {st : State} {op : Inst} : op ∈ live st ↔ op ∈ st.ops ∧ op.id ∉ st.erased := by
  simp [live]

theorem mem_number {k : Nat} {l : List Inst} {op : Inst} : op ∈ number k l ↔
    ∃ i, ∃ n : Inst, l[i]? = some n ∧ op = { n with id := k + i } := by
  unfold number
  rw [List.mem_iff_getElem?]
  constructor
  · rintro ⟨i, h⟩
    rw [List.getElem?_mapIdx, Option.map_eq_some_iff] at h
    obtain ⟨n, h1, h2⟩ := h
    exact ⟨i, n, h1, h2.symm⟩
  · rintro ⟨i, n, h1, rfl⟩
    exact ⟨i, by rw [List.getElem?_mapIdx, h1]; rfl⟩

theorem number_length (k : Nat) (l : List Inst) : (number k l).length = l.length := by
  simp [number]

theorem number_ids (k : Nat) (l : List Inst) :
    (number k l).map Inst.id = (List.range l.length).map (k + ·) := by
  apply List.ext_getElem?
  intro i
  unfold number
  simp only [List.getElem?_map, List.getElem?_mapIdx]
  by_cases h : i < l.length
  · simp [h]
  · simp [h]

theorem number_id_bounds {k : Nat} {l : List Inst} {op : Inst} (h : op ∈ number k l) :
    k ≤ op.id ∧ op.id < k + l.length := by
  obtain ⟨i, n, h1, rfl⟩ := mem_number.1 h
  have := (List.getElem?_eq_some_iff.1 h1).1
  exact ⟨by simp, by simpa using this⟩

theorem mem_union_fold {l : List Inst} {s : Finset Point} {p : Point} :
    p ∈ l.foldl (fun acc n => acc ∪ n.indices) s ↔ p ∈ s ∨ ∃ n ∈ l, p ∈ n.indices := by
  induction l generalizing s with
  | nil => simp
  | cons a l ih =>
    rw [List.foldl_cons, ih, Finset.mem_union]
    simp [or_assoc]

/-- What is kept by the iterations: the numbers are unique, the equations inside the SCC follow from
the original ones, and those that are not to be erased imply them. -/
structure Kept {α : Type} (D : Domain α) (original : List Inst) (st : State) : Prop where
  ids : (st.ops.map Inst.id).Nodup
  lt : ∀ op ∈ st.ops, op.id < st.next
  erased : ∀ i ∈ st.erased, i < st.next
  sub : ∀ op ∈ original, op ∈ st.ops
  made : ∀ op ∈ original, op.id ∉ st.made
  forward : ∀ ρ, SolvesAll D ρ original → SolvesAll D ρ st.ops
  backward : ∀ ρ, SolvesAll D ρ (live st) → SolvesAll D ρ original

theorem eq_of_ids {l : List Inst} (h : (l.map Inst.id).Nodup) {a b : Inst} (ha : a ∈ l) (hb : b ∈ l)
    (hid : a.id = b.id) : a = b := List.inj_on_of_nodup_map h ha hb hid

theorem cycleGiven_mono {l l' : List Inst} {cycle : List CyclicEq} (h : CycleGiven l cycle)
    (hl : ∀ op ∈ l, op ∈ l') : CycleGiven l' cycle :=
  ⟨fun c hc => ⟨(h.parts c hc).1, hl _ (h.parts c hc).2⟩, h.linked, h.first⟩

section
variable {α : Type} {D : Domain α} {S : Simplifier} {rep : Finset Point → List (Finset Point)}
  {explicitate : Inst → Option Template} {original : List Inst}

/-- New equations that follow from the others. -/
theorem Kept.add {st : State} (h : Kept D original st) {l : List Inst} {k : Nat}
    (hl : (l.map Inst.id).Nodup) (hb : ∀ op ∈ l, st.next ≤ op.id ∧ op.id < k) (hk : st.next ≤ k)
    (hf : ∀ ρ, SolvesAll D ρ st.ops → SolvesAll D ρ l) {made : List Nat}
    (hm : ∀ i ∈ made, i ∈ st.made ∨ st.next ≤ i) :
    Kept D original { st with ops := st.ops ++ l, next := k, made := made } where
  ids := by
    rw [List.map_append, List.nodup_append]
    refine ⟨h.ids, hl, ?_⟩
    intro a ha b hb' hab
    obtain ⟨x, hx, rfl⟩ := List.mem_map.1 ha
    obtain ⟨y, hy, rfl⟩ := List.mem_map.1 hb'
    have := h.lt x hx
    have := (hb y hy).1
    omega
  lt op hop := by
    rcases List.mem_append.1 hop with h1 | h1
    · exact lt_of_lt_of_le (h.lt op h1) hk
    · exact (hb op h1).2
  erased i hi := lt_of_lt_of_le (h.erased i hi) hk
  sub op hop := List.mem_append.2 (.inl (h.sub op hop))
  made op hop hc := by
    rcases hm _ hc with h1 | h1
    · exact h.made op hop h1
    · have := h.lt op (h.sub op hop)
      omega
  forward ρ hρ op hop := by
    rcases List.mem_append.1 hop with h1 | h1
    · exact h.forward ρ hρ op h1
    · exact hf ρ (h.forward ρ hρ) op h1
  backward ρ hρ := h.backward ρ fun op hop => hρ op (by
    rw [mem_live] at hop ⊢
    exact ⟨List.mem_append.2 (.inl hop.1), hop.2⟩)

/-- Erasing an equation that follows from the others that are not to be erased. -/
theorem Kept.erase {st : State} (h : Kept D original st) {e : Inst} (he : e ∈ st.ops)
    (hb : ∀ ρ, SolvesAll D ρ ((live st).filter fun op => op.id != e.id) → Holds D ρ e) :
    Kept D original { st with erased := st.erased ++ [e.id] } where
  ids := h.ids
  lt := h.lt
  erased i hi := by
    rcases List.mem_append.1 hi with h1 | h1
    · exact h.erased i h1
    · rw [List.mem_singleton.1 h1]
      exact h.lt e he
  sub := h.sub
  made := h.made
  forward := h.forward
  backward ρ hρ := h.backward ρ fun op hop => by
    have hlive : ∀ op ∈ live st, op.id ≠ e.id → Holds D ρ op := by
      intro op hop hne
      apply hρ
      rw [mem_live] at hop ⊢
      refine ⟨hop.1, ?_⟩
      simp only [List.mem_append, List.mem_singleton, not_or]
      exact ⟨hop.2, hne⟩
    by_cases hid : op.id = e.id
    · rw [eq_of_ids h.ids (mem_live.1 hop).1 he hid]
      refine hb ρ fun op' hop' => ?_
      rw [List.mem_filter] at hop'
      exact hlive op' hop'.1 (by simpa using hop'.2)
    · exact hlive op hop hid

theorem tryCycles_kept (hS : Tidy S) (hrep : StoredRanges rep) (hx : ExplicitOk D explicitate) :
    ∀ (rest before : List (List CyclicEq)) (st : State), Kept D original st →
    (∀ cyc ∈ rest, CycleGiven (live st) cyc) →
    Kept D original (tryCycles S rep explicitate before rest st).1 ∧
    ∀ op ∈ (tryCycles S rep explicitate before rest st).2,
      op ∈ live (tryCycles S rep explicitate before rest st).1
  | [], _, st, hst, _ => by simpa [tryCycles] using hst
  | cycle :: rest, before, st, hst, hcs => by
    unfold tryCycles
    by_cases hb : containedInBigger before cycle = true
    · rw [if_pos hb]
      exact tryCycles_kept hS hrep hx rest _ st hst fun cyc hc => hcs cyc (by simp [hc])
    · rw [if_neg hb]
      have hcg := hcs cycle (by simp)
      cases cycle with
      | nil =>
        simp only [solveCycle, number, List.mapIdx_nil, List.append_nil, List.length_nil,
          Nat.add_zero]
        exact tryCycles_kept hS hrep hx rest _ st hst fun cyc hc => hcs cyc (by simp [hc])
      | cons c cs =>
        obtain ⟨hs1, hs2⟩ := solveCycle_spec D S hS hrep hx c cs (fun d hd => (hcg.parts d hd).1)
          hcg.linked
        rcases hsc : solveCycle S rep explicitate (c :: cs) with ⟨made, ok⟩
        rw [hsc] at hs1 hs2
        simp only at hs1 hs2 ⊢
        have hops : ∀ d ∈ c :: cs, d.eq ∈ st.ops := fun d hd => (mem_live.1 (hcg.parts d hd).2).1
        have hnew : ∀ ρ, SolvesAll D ρ st.ops → SolvesAll D ρ (number st.next made) := by
          intro ρ hρ op hop p hp
          obtain ⟨i, n, hn, rfl⟩ := mem_number.1 hop
          obtain ⟨-, h2⟩ := hs2 n (List.mem_of_getElem? hn)
          obtain ⟨h3, h4⟩ := h2 ρ (fun d hd => hρ _ (hops d (by simp [hd]))) p hp
          exact h4.2 (hρ _ (hops c (by simp)) p h3)
        have hnids : ((number st.next made).map Inst.id).Nodup := by
          rw [number_ids]
          exact List.nodup_range.map fun a b hab => by simpa using hab
        have hnb : ∀ op ∈ number st.next made, st.next ≤ op.id ∧
            op.id < st.next + (number st.next made).length := by
          intro op hop
          rw [number_length]
          exact number_id_bounds hop
        cases ok with
        | false =>
          simp only
          refine tryCycles_kept hS hrep hx rest _ _ ?_ ?_
          · exact hst.add hnids hnb (by omega) hnew fun i hi => .inl hi
          · intro cyc hc
            refine cycleGiven_mono (hcs cyc (by simp [hc])) fun op hop => ?_
            rw [mem_live] at hop ⊢
            exact ⟨List.mem_append.2 (.inl hop.1), hop.2⟩
        | true =>
          simp only
          have hc := (hcg.parts c (by simp)).1
          set N := number st.next made with hN
          set k := st.next + N.length with hk
          set clone := (leftover c.eq N).map fun op => ({ op with id := k } : Inst) with hclone
          have hcl : ∀ op ∈ clone.toList, op.id = k ∧ op.tmpl = c.eq.tmpl ∧
              op.indices ⊆ c.eq.indices := by
            intro op hop
            rw [Option.mem_toList, hclone, Option.map_eq_some_iff] at hop
            obtain ⟨n, h1, rfl⟩ := hop
            unfold leftover at h1
            split_ifs at h1 with h2
            simp only at h1
            split_ifs at h1 with h3
            have h1 := (Option.some.inj h1).symm
            subst h1
            exact ⟨rfl, rfl, Finset.sdiff_subset⟩
          have hadd : Kept D original { st with
              ops := st.ops ++ (N ++ clone.toList), next := k + 1
              made := st.made ++ N.map Inst.id } := by
            refine hst.add ?_ ?_ (by omega) ?_ ?_
            · rw [List.map_append, List.nodup_append]
              refine ⟨hnids, ?_, ?_⟩
              · cases clone <;> simp
              · intro a ha b hb' hab
                obtain ⟨x, hx', rfl⟩ := List.mem_map.1 ha
                obtain ⟨y, hy, rfl⟩ := List.mem_map.1 hb'
                have h1 := (hnb x hx').2
                have h2 := (hcl y hy).1
                omega
            · intro op hop
              rcases List.mem_append.1 hop with h1 | h1
              · have := hnb op h1
                omega
              · have := (hcl op h1).1
                omega
            · intro ρ hρ op hop
              rcases List.mem_append.1 hop with h1 | h1
              · exact hnew ρ hρ op h1
              · intro p hp
                obtain ⟨-, h2, h3⟩ := hcl op h1
                rw [h2]
                refine hρ _ (hops c (by simp)) p ?_
                rw [mem_iterations] at hp ⊢
                rw [h2] at hp
                rcases hp with hp | hp
                · exact .inl hp
                · exact .inr ⟨hp.1, h3 hp.2⟩
            · intro i hi
              rcases List.mem_append.1 hi with h1 | h1
              · exact .inl h1
              · obtain ⟨x, hx', rfl⟩ := List.mem_map.1 h1
                exact .inr (hnb x hx').1
          have hmem : c.eq ∈ st.ops ++ (N ++ clone.toList) :=
            List.mem_append.2 (.inl (hops c (by simp)))
          have hfin := hadd.erase hmem (by
            intro ρ hρ p hp
            have hlive : ∀ op ∈ st.ops ++ (N ++ clone.toList), op.id ∉ st.erased →
                op.id ≠ c.eq.id → Holds D ρ op := by
              intro op h1 h2 h3
              apply hρ
              rw [List.mem_filter, mem_live]
              exact ⟨⟨h1, h2⟩, by simpa using h3⟩
            have hfresh : ∀ op ∈ N ++ clone.toList, Holds D ρ op := by
              intro op hop
              have hge : st.next ≤ op.id := by
                rcases List.mem_append.1 hop with h1 | h1
                · exact (hnb op h1).1
                · have := (hcl op h1).1
                  omega
              refine hlive op (List.mem_append.2 (.inr hop)) (fun h => ?_) (fun h => ?_)
              · have := hst.erased _ h
                omega
              · have := hst.lt c.eq (hops c (by simp))
                omega
            have htail : ∀ d ∈ cs, Holds D ρ d.eq := by
              intro d hd
              have h1 := mem_live.1 (hcg.parts d (by simp [hd])).2
              exact hlive d.eq (List.mem_append.2 (.inl h1.1)) h1.2 (hcg.first c cs rfl d hd)
            have hfrom : ∀ n ∈ N, p ∈ iterations n → HoldsAt D ρ c.eq.tmpl p := by
              intro n hn hpn
              have h1 := hfresh n (List.mem_append.2 (.inl hn)) p hpn
              obtain ⟨i, n0, h2, rfl⟩ := mem_number.1 hn
              exact ((hs2 n0 (List.mem_of_getElem? h2)).2 ρ htail p hpn).2.1 h1
            have hinds : ∀ n ∈ N, n.tmpl.inds = c.eq.tmpl.inds := by
              intro n hn
              obtain ⟨i, n0, h2, rfl⟩ := mem_number.1 hn
              exact (hs2 n0 (List.mem_of_getElem? h2)).1.inds
            rcases mem_iterations.1 hp with ⟨h0, rfl⟩ | ⟨h0, hpi⟩
            · have hne : N ≠ [] := by
                rw [← List.length_pos_iff, hN, number_length, List.length_pos_iff]
                exact hs1 rfl
              obtain ⟨n, hn⟩ := List.exists_mem_of_ne_nil _ hne
              exact hfrom n hn (mem_iterations.2 (.inl ⟨(hinds n hn).trans h0, rfl⟩))
            · by_cases hin : ∃ n ∈ N, p ∈ n.indices
              · obtain ⟨n, hn, hpn⟩ := hin
                exact hfrom n hn (mem_iterations.2 (.inr ⟨by rw [hinds n hn]; exact h0, hpn⟩))
              · have hce : c.eq.indices ≠ ∅ := fun h => h0 (hc.eq.empty.2 h)
                have hpr : p ∈ c.eq.indices \ N.foldl (fun acc n => acc ∪ n.indices) ∅ := by
                  rw [Finset.mem_sdiff, mem_union_fold]
                  exact ⟨hpi, by simpa using hin⟩
                have hlo : leftover c.eq N = some { c.eq with
                    indices := c.eq.indices \ N.foldl (fun acc n => acc ∪ n.indices) ∅ } := by
                  unfold leftover
                  rw [if_neg hce]
                  exact if_neg (Finset.ne_empty_of_mem hpr)
                have := hfresh { c.eq with
                    indices := c.eq.indices \ N.foldl (fun acc n => acc ∪ n.indices) ∅, id := k } (by
                  rw [List.mem_append, Option.mem_toList, hclone, hlo]
                  exact .inr rfl)
                exact this p (mem_iterations.2 (.inr ⟨h0, hpr⟩)))
          rw [List.append_assoc]
          refine ⟨hfin, fun op hop => ?_⟩
          rw [mem_live]
          refine ⟨by simp only [List.mem_append]; exact .inr (.inr hop), ?_⟩
          have h1 := (hcl op hop).1
          simp only [List.mem_append, List.mem_singleton, not_or]
          refine ⟨fun h => ?_, fun h => ?_⟩
          · have := hst.erased _ h
            omega
          · have := hst.lt c.eq (hops c (by simp))
            omega

theorem iterate_kept (hS : Tidy S) (hrep : StoredRanges rep) (hx : ExplicitOk D explicitate)
    {search : List Inst → List (List CyclicEq)}
    (hsearch : ∀ eqs, ∀ cyc ∈ search eqs, CycleGiven eqs cyc) : ∀ (k : Nat)
    (cycles : List (List CyclicEq)) (st : State), Kept D original st →
    (∀ cyc ∈ cycles, CycleGiven (live st) cyc) →
    Kept D original (iterate S rep explicitate search original k cycles st).2
  | 0, _, st, hst, _ => by simpa [iterate] using hst
  | k + 1, cycles, st, hst, hcs => by
    unfold iterate
    by_cases he : cycles.isEmpty = true
    · rw [if_pos he]; exact hst
    · rw [if_neg he]
      obtain ⟨h1, h2⟩ := tryCycles_kept hS hrep hx cycles [] st hst hcs
      rcases ht : tryCycles S rep explicitate [] cycles st with ⟨st', clone⟩
      rw [ht] at h1 h2
      simp only at h1 h2 ⊢
      refine iterate_kept hS hrep hx hsearch k _ st' h1 fun cyc hc => ?_
      refine cycleGiven_mono (hsearch _ cyc hc) fun op hop => ?_
      unfold currentEquations at hop
      simp only [List.mem_append, List.mem_filter] at hop
      rcases hop with (hop | ⟨ho, hne⟩) | ⟨ho, hne⟩
      · exact h2 op hop
      · exact mem_live.2 ⟨h1.sub op ho, by simpa using hne⟩
      · simp only [Bool.and_eq_true, Bool.not_eq_true'] at hne
        exact mem_live.2 ⟨ho, by simpa using hne.2⟩

end

end Marco.Props
