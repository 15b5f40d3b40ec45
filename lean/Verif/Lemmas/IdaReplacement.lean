import Mathlib.Data.Finset.Card
import Mathlib.Algebra.Order.BigOperators.Group.Multiset
import Verif.Lemmas.CycleSolving
import Verif.Spec.IdaReplacement

/-!
# Lemmas about the replacement of the variables that IDA does not handle
-/

namespace Marco.IdaRep
open Marco Marco.Subst Marco.Spec Marco.Spec.IdaRep Marco.Props

theorem at_of_mem {e : Expr} {a : Acc} (h : a ∈ accessesIn e) :
    e.at a.1 = some (.var a.2.1 a.2.2) ∧ ReadsIn a.2.1 a.2.2 e := by
  induction e generalizing a with
  | var v subs =>
    simp only [accessesIn, List.mem_singleton] at h
    subst h
    exact ⟨rfl, rfl, rfl⟩
  | ind e => simp [accessesIn] at h
  | cst c => simp [accessesIn] at h
  | op f x y ihx ihy =>
    simp only [accessesIn, List.mem_append, List.mem_map] at h
    rcases h with ⟨b, hb, rfl⟩ | ⟨b, hb, rfl⟩
    · exact ⟨by simpa [Expr.at] using (ihx hb).1, .inl (ihx hb).2⟩
    · exact ⟨by simpa [Expr.at] using (ihy hb).1, .inr (ihy hb).2⟩

theorem mem_of_readsIn {e : Expr} {v : Nat} {subs : List DimAccess} (h : ReadsIn v subs e) :
    ∃ ss, (ss, v, subs) ∈ accessesIn e := by
  induction e with
  | var w s => obtain ⟨rfl, rfl⟩ := h; exact ⟨[], by simp [accessesIn]⟩
  | ind e => exact h.elim
  | cst c => exact h.elim
  | op f x y ihx ihy =>
    rcases h with h | h
    · obtain ⟨ss, hs⟩ := ihx h
      exact ⟨false :: ss, List.mem_append_left _ (List.mem_map.2 ⟨_, hs, rfl⟩)⟩
    · obtain ⟨ss, hs⟩ := ihy h
      exact ⟨true :: ss, List.mem_append_right _ (List.mem_map.2 ⟨_, hs, rfl⟩)⟩

theorem access_spec {t : Template} {a : Path × Nat × List DimAccess} (h : a ∈ accesses t) :
    t.at a.1 = some (.var a.2.1 a.2.2) ∧ Has a.2.1 a.2.2 t := by
  simp only [accesses, List.mem_append, List.mem_map] at h
  rcases h with ⟨b, hb, rfl⟩ | ⟨b, hb, rfl⟩
  · exact ⟨by simpa [Template.at] using (at_of_mem hb).1, .inl (at_of_mem hb).2⟩
  · exact ⟨by simpa [Template.at] using (at_of_mem hb).1, .inr (at_of_mem hb).2⟩

theorem access_of_has {t : Template} {v : Nat} {subs : List DimAccess} (h : Has v subs t) :
    ∃ path, (path, v, subs) ∈ accesses t := by
  rcases h with h | h
  · obtain ⟨ss, hs⟩ := mem_of_readsIn h
    exact ⟨⟨false, ss⟩, List.mem_append_left _ (List.mem_map.2 ⟨_, hs, rfl⟩)⟩
  · obtain ⟨ss, hs⟩ := mem_of_readsIn h
    exact ⟨⟨true, ss⟩, List.mem_append_right _ (List.mem_map.2 ⟨_, hs, rfl⟩)⟩

/-! ### Replaced expressions -/

/-- The template with the value at the path replaced. -/
def putT (t : Template) (path : Path) (y : Expr) : Template :=
  if path.right then { t with rhs := t.rhs.put path.steps y } else { t with lhs := t.lhs.put path.steps y }

theorem putT_inds (t : Template) (path : Path) (y : Expr) : (putT t path y).inds = t.inds := by
  unfold putT; split <;> rfl

theorem readsIn_put {v : Nat} {s : List DimAccess} {y : Expr} : ∀ (ss : List Bool) (e : Expr),
    ReadsIn v s (e.put ss y) → ReadsIn v s e ∨ ReadsIn v s y
  | [], e, h => by cases e <;> exact .inr h
  | b :: ss, .op f x z, h => by
    unfold Expr.put at h
    split at h
    · rcases h with h | h
      · exact .inl (.inl h)
      · rcases readsIn_put ss z h with h | h
        · exact .inl (.inr h)
        · exact .inr h
    · rcases h with h | h
      · rcases readsIn_put ss x h with h | h
        · exact .inl (.inl h)
        · exact .inr h
      · exact .inl (.inr h)
  | _ :: _, .var _ _, h => .inl h
  | _ :: _, .ind _, h => .inl h
  | _ :: _, .cst _, h => .inl h

theorem has_putT {v : Nat} {s : List DimAccess} {t : Template} {path : Path} {y : Expr}
    (h : Has v s (putT t path y)) : Has v s t ∨ ReadsIn v s y := by
  unfold putT at h
  split at h
  · rcases h with h | h
    · exact .inl (.inl h)
    · rcases readsIn_put _ _ h with h | h
      · exact .inl (.inr h)
      · exact .inr h
  · rcases h with h | h
    · rcases readsIn_put _ _ h with h | h
      · exact .inl (.inl h)
      · exact .inr h
    · exact .inl (.inr h)

theorem readsIn_mapInds {v : Nat} {s : List DimAccess} {ts : List AExpr} {y : Expr} (h : ReadsIn v s (y.mapInds ts)) :
    ∃ s', s = s'.map (mapSubscript ts) ∧ ReadsIn v s' y := by
  induction y with
  | var w s0 => obtain ⟨rfl, rfl⟩ := h; exact ⟨s0, rfl, rfl, rfl⟩
  | ind e => exact h.elim
  | cst c => exact h.elim
  | op f x z ihx ihz =>
    rcases h with h | h
    · obtain ⟨s', h1, h2⟩ := ihx h; exact ⟨s', h1, .inl h2⟩
    · obtain ⟨s', h1, h2⟩ := ihz h; exact ⟨s', h1, .inr h2⟩

theorem inScope_put {n : Nat} {y : Expr} (hy : InScope n y) : ∀ (ss : List Bool) (e : Expr),
    InScope n e → InScope n (e.put ss y)
  | [], e, _ => by cases e <;> exact hy
  | b :: ss, .op f x z, h => by
    unfold Expr.put
    split
    · exact ⟨h.1, inScope_put hy ss z h.2⟩
    · exact ⟨inScope_put hy ss x h.1, h.2⟩
  | _ :: _, .var _ _, h => h
  | _ :: _, .ind _, h => h
  | _ :: _, .cst _, h => h

theorem below_subst {n : Nat} {ts : List AExpr} (ht : ∀ e ∈ ts, e.NoDiv ∧ e.Below n) {e : AExpr}
    (h : e.Below ts.length) : (e.subst ts).Below n := by
  induction e with
  | const v => trivial
  | dim d =>
    have hd : d < ts.length := h
    simp only [AExpr.subst, List.getD_eq_getElem?_getD, List.getElem?_eq_getElem hd, Option.getD_some]
    exact (ht _ (List.getElem_mem hd)).2
  | add a b iha ihb => exact ⟨iha h.1, ihb h.2⟩
  | mul a b iha ihb => exact ⟨iha h.1, ihb h.2⟩
  | floorDiv a b iha ihb => exact ⟨iha h.1, ihb h.2⟩

theorem inScope_mapInds {n : Nat} {ts : List AExpr} (ht : ∀ e ∈ ts, e.NoDiv ∧ e.Below n) {y : Expr}
    (h : InScope ts.length y) : InScope n (y.mapInds ts) := by
  induction y with
  | var v subs =>
    intro a ha
    obtain ⟨b, hb, rfl⟩ := List.mem_map.1 ha
    obtain ⟨e, e1, e2, e3⟩ := h b hb
    refine ⟨e.subst ts, by rw [mapSubscript_affine, e1]; rfl, AExpr.noDiv_subst (fun e he => (ht e he).1) e2, below_subst ht e3⟩
  | ind e => exact ⟨AExpr.noDiv_subst (fun e he => (ht e he).1) h.1, below_subst ht h.2⟩
  | cst c => trivial
  | op f x z ihx ihz => exact ⟨ihx h.1, ihz h.2⟩

theorem readsIn_plain {n v : Nat} {s : List DimAccess} {e : Expr} (h : InScope n e) (hr : ReadsIn v s e) : PlainAccess n s := by
  induction e with
  | var w s0 => obtain ⟨rfl, rfl⟩ := hr; exact h
  | ind e => exact hr.elim
  | cst c => exact hr.elim
  | op f x z ihx ihz =>
    rcases hr with hr | hr
    · exact ihx h.1 hr
    · exact ihz h.2 hr

/-- The replacement of an access succeeds, if the written access is made of offsets. -/
theorem replace_done (S : Simplifier) (hS : Tidy S) (hK : KeepsOffsets S) {t x : Template} {path : Path} {v : Nat}
    {subs ws : List DimAccess} (hat : t.at path = some (.var v subs)) (hsub : PlainAccess t.inds subs)
    (hlhs : x.lhs = .var v ws) (hws : OffsetAccess x.inds ws) (hwp : PlainAccess x.inds ws) {p0 q0 r0 : Point}
    (hp0 : p0.length = t.inds) (hq0 : q0.length = x.inds) (h1 : Reaches subs p0 r0) (h2 : Reaches ws q0 r0) :
    ∃ ts, ts.length = x.inds ∧ (∀ e ∈ ts, e.NoDiv ∧ e.Below t.inds) ∧
      replaceAccess S t path x = .done (putT t path (x.rhs.mapInds ts)) ∧
      ∀ p q r, t.inds ≤ p.length → q.length = x.inds → Reaches subs p r → Reaches ws q r → Vals ts p q := by
  obtain ⟨f, hf, hm⟩ := C75_complete S hS hK x.inds t.inds ws subs hws hsub
  have hmi := hm p0 q0 r0 hp0.ge hq0 h1 h2
  obtain ⟨es, a1, -, a3, a4⟩ := build_plain S hS hwp
  obtain ⟨ed, b1, -, b3, b4⟩ := build_plain S hS hsub
  have hf' := hf
  rw [a1, b1] at hf'
  obtain ⟨t1, t2, u, u1, u2, -, u4⟩ := transformation_vals S hS a3 b3 hf'
  have hlen : x.inds ≤ f.affineMap.results.length := by
    by_contra hc
    unfold mapInductions at hmi
    rw [t1, if_neg (by simp), if_pos (by omega)] at hmi
    cases hmi
  have hul := List.count_le_length (a := true) (l := u)
  have hlen' : f.affineMap.results.length = x.inds := by omega
  have hvals : ∀ p q r, t.inds ≤ p.length → q.length = x.inds → Reaches subs p r → Reaches ws q r →
      Vals f.affineMap.results p q := by
    intro p q r hp hq k1 k2
    have hv := u4 p q r hp hq (b4 p r hp k1) (a4 q r hq.ge k2)
    rw [select_all q u (by rw [hq, u1]) (all_of_count u1 (by omega))] at hv
    exact hv
  refine ⟨f.affineMap.results, hlen', ?_, ?_, hvals⟩
  · intro e he
    refine ⟨t2 e he, ?_⟩
    have hv := hvals p0 q0 r0 hp0.ge hq0 h1 h2
    obtain ⟨i, hi, rfl⟩ := List.mem_iff_getElem.1 he
    have hf2 := List.forall₂_iff_get.1 hv
    have := hf2.2 i hi (by rw [← hf2.1]; exact hi)
    rw [← hp0]
    exact AExpr.below_of_eval this
  · unfold replaceAccess
    simp only [hat, hlhs, hf]
    rw [if_neg (by simp [t1, hlen'])]
    rw [List.take_of_length_le (by omega)]
    rfl

/-! ### The writing equations -/

theorem iterations_nonempty {op : Inst} (h : WellFormed op) : ∃ p, p ∈ iterations op := by
  unfold iterations
  by_cases hi : op.tmpl.inds = 0
  · exact ⟨[], by simp [hi]⟩
  · rw [if_neg hi]
    exact Finset.nonempty_iff_ne_empty.2 fun hc => hi (h.empty.2 hc)

theorem iterations_length {op : Inst} (h : WellFormed op) {p : Point} (hp : p ∈ iterations op) : p.length = op.tmpl.inds := by
  rcases mem_iterations.1 hp with ⟨h1, rfl⟩ | ⟨-, h2⟩
  · simp [h1]
  · exact h.rank p h2

theorem mem_accessed {op : Inst} {subs : List DimAccess} {r : Point} :
    r ∈ writtenBy subs op.tmpl.inds op.indices ↔ subs ≠ [] ∧ ∃ p ∈ iterations op, Reaches subs p r := by
  unfold writtenBy
  by_cases hs : subs = []
  · simp [hs]
  · rw [if_neg hs, Finset.mem_biUnion]
    constructor
    · rintro ⟨p, hp, hr⟩
      refine ⟨hs, p, hp, ?_⟩
      cases he : element subs p with
      | none => rw [he] at hr; simp at hr
      | some r' =>
        rw [he] at hr
        simp only [Option.elim_some, Finset.mem_singleton] at hr
        rw [hr]
        exact element_reaches.1 he
    · rintro ⟨-, p, hp, hr⟩
      refine ⟨p, hp, ?_⟩
      rw [element_reaches.2 hr]
      simp

theorem reaches_nil {p r : Point} (h : Reaches [] p r) : r = [] := by cases h; rfl

theorem nil_of_reaches {ws : List DimAccess} {p : Point} (h : Reaches ws p []) : ws = [] := by cases h; rfl

/-- A number of times a point is found. -/
theorem sum_indicator {β : Type} (P : β → Prop) [DecidablePred P] : ∀ (l : List β), l.Pairwise (fun a b => ¬ (P a ∧ P b)) →
    (l.map fun a => if P a then 1 else 0).sum = if ∃ a ∈ l, P a then 1 else 0
  | [], _ => by simp
  | a :: l, h => by
    rw [List.pairwise_cons] at h
    rw [List.map_cons, List.sum_cons, sum_indicator P l h.2]
    by_cases ha : P a
    · have h1 : ¬ ∃ b ∈ l, P b := by
        rintro ⟨b, hb, hpb⟩
        exact h.1 b hb ⟨ha, hpb⟩
      have h2 : ∃ b ∈ a :: l, P b := ⟨a, List.mem_cons_self, ha⟩
      rw [if_pos ha, if_neg h1, if_pos h2]
    · rw [if_neg ha]
      by_cases hl : ∃ b ∈ l, P b
      · obtain ⟨b, hb, hpb⟩ := hl
        rw [if_pos ⟨b, hb, hpb⟩, if_pos ⟨b, List.mem_cons_of_mem _ hb, hpb⟩]
      · rw [if_neg hl, if_neg]
        rintro ⟨b, hb, hpb⟩
        rcases List.mem_cons.1 hb with rfl | hb
        · exact ha hpb
        · exact hl ⟨b, hb, hpb⟩

section
variable {α : Type} {D : Domain α} {dom : Nat → Finset Point} {explicitate : Inst → Option Template} {writers : List Inst}

theorem writesTo_nodup (hW : Writers D dom explicitate writers) (v : Nat) (s : Finset Point) : (writesTo writers v s).Nodup := by
  unfold writesTo
  split
  · cases (List.filter _ writers).getLast? <;> simp
  · exact hW.nodup.filter _

theorem writesTo_hit (hW : Writers D dom explicitate writers) {op : Inst} (hop : WellFormed op) {v : Nat} {subs : List DimAccess}
    (hsub : PlainAccess op.tmpl.inds subs) {w : Inst}
    (h : w ∈ writesTo writers v (writtenBy subs op.tmpl.inds op.indices)) :
    w ∈ writers ∧ w.writes = v ∧ ∃ p ∈ iterations op, ∃ r, Reaches subs p r ∧ Writes w v r := by
  unfold writesTo at h
  split at h
  · rename_i he
    have hsn : subs = [] := by
      by_contra hc
      obtain ⟨p, hp⟩ := iterations_nonempty hop
      obtain ⟨r, hr⟩ := plain_reaches hsub (iterations_length hop hp).ge
      have := mem_accessed.2 ⟨hc, p, hp, hr⟩
      rw [he] at this
      simp at this
    rw [Option.mem_toList] at h
    have hm := List.mem_of_getLast? h
    simp only [List.mem_filter, Bool.and_eq_true, decide_eq_true_eq] at hm
    obtain ⟨m1, m2, m3⟩ := hm
    refine ⟨m1, m2, ?_⟩
    obtain ⟨p, hp⟩ := iterations_nonempty hop
    refine ⟨p, hp, [], by rw [hsn]; exact .nil, m2, ?_⟩
    obtain ⟨q, hq⟩ := iterations_nonempty (hW.wellFormed w m1)
    refine ⟨q, hq, ?_⟩
    have hwn : w.written = [] := by
      by_contra hc
      obtain ⟨r, hr⟩ := plain_reaches (hW.wellFormed w m1).written (iterations_length (hW.wellFormed w m1) hq).ge
      have := mem_accessed.2 ⟨hc, q, hq, hr⟩
      unfold written at m3
      rw [m3] at this
      simp at this
    rw [hwn]
    exact .nil
  · simp only [List.mem_filter, Bool.and_eq_true, decide_eq_true_eq] at h
    obtain ⟨m1, m2, m3⟩ := h
    obtain ⟨r, hr⟩ := Finset.nonempty_iff_ne_empty.2 m3
    rw [Finset.mem_inter] at hr
    obtain ⟨-, q, hq, hr1⟩ := mem_accessed.1 hr.1
    obtain ⟨-, p, hp, hr2⟩ := mem_accessed.1 hr.2
    exact ⟨m1, m2, p, hp, r, hr2, m2, q, hq, hr1⟩

theorem writesTo_mem (hW : Writers D dom explicitate writers) {op : Inst} {v : Nat} {subs : List DimAccess} {p r : Point}
    (hp : p ∈ iterations op) (hr : Reaches subs p r) {w : Inst} (hw : w ∈ writers) (h : Writes w v r) :
    w ∈ writesTo writers v (writtenBy subs op.tmpl.inds op.indices) := by
  obtain ⟨h1, q, hq, h2⟩ := h
  unfold writesTo
  by_cases hs : subs = []
  · have hr0 : r = [] := reaches_nil (hs ▸ hr)
    subst hr0
    have hw0 := nil_of_reaches h2
    have he : writtenBy subs op.tmpl.inds op.indices = ∅ := by simp [writtenBy, hs]
    rw [if_pos he]
    have hm : w ∈ writers.filter fun w => decide (w.writes = v) && decide (written w = ∅) := by
      simp only [List.mem_filter, Bool.and_eq_true, decide_eq_true_eq]
      exact ⟨hw, h1, by simp [written, writtenBy, hw0]⟩
    cases hl : (writers.filter fun w => decide (w.writes = v) && decide (written w = ∅)).getLast? with
    | none =>
      rw [List.getLast?_eq_none_iff] at hl
      rw [hl] at hm
      cases hm
    | some w' =>
      have hm' := List.mem_of_getLast? hl
      simp only [List.mem_filter, Bool.and_eq_true, decide_eq_true_eq] at hm'
      have hw' : Writes w' v [] := by
        refine ⟨hm'.2.1, ?_⟩
        obtain ⟨q', hq'⟩ := iterations_nonempty (hW.wellFormed w' hm'.1)
        refine ⟨q', hq', ?_⟩
        have hwn : w'.written = [] := by
          by_contra hc
          obtain ⟨r, hr⟩ := plain_reaches (hW.wellFormed w' hm'.1).written
            (iterations_length (hW.wellFormed w' hm'.1) hq').ge
          have := mem_accessed.2 ⟨hc, q', hq', hr⟩
          have he' := hm'.2.2
          unfold written at he'
          rw [he'] at this
          simp at this
        rw [hwn]
        exact .nil
      have := hW.once v [] w hw w' hm'.1 ⟨h1, q, hq, h2⟩ hw'
      subst this
      simp
  · have hmem := mem_accessed.2 ⟨hs, p, hp, hr⟩
    rw [if_neg (Finset.nonempty_iff_ne_empty.1 ⟨r, hmem⟩)]
    simp only [List.mem_filter, Bool.and_eq_true, decide_eq_true_eq]
    refine ⟨hw, h1, Finset.nonempty_iff_ne_empty.1 ⟨r, Finset.mem_inter.2 ⟨?_, hmem⟩⟩⟩
    refine mem_accessed.2 ⟨?_, q, hq, h2⟩
    rintro hc
    rw [hc] at h2
    have hr0 := reaches_nil h2
    subst hr0
    exact hs (nil_of_reaches hr)

/-- The indices at which the access is replaced by the equation. -/
theorem mem_given {op : Inst} (hop : WellFormed op) (hi : op.tmpl.inds ≠ 0)
    {v : Nat} {subs : List DimAccess} {w : Inst} (hv : w.writes = v)
    (hit : ∃ p ∈ iterations op, ∃ r, Reaches subs p r ∧ Writes w v r) (p : Point) :
    p ∈ (if op.indices = ∅ then ∅ else op.indices ∩
      readingIndices subs (writtenBy subs op.tmpl.inds op.indices ∩ written w) op.indices) ↔
    p ∈ op.indices ∧ ∃ r, Reaches subs p r ∧ Writes w v r := by
  have hne : op.indices ≠ ∅ := fun hc => hi (hop.empty.2 hc)
  rw [if_neg hne, Finset.mem_inter]
  unfold readingIndices
  obtain ⟨p1, hp1, r1, k1, k2⟩ := hit
  by_cases hs : subs = []
  · have he : writtenBy subs op.tmpl.inds op.indices = ∅ := by simp [writtenBy, hs]
    rw [he, Finset.empty_inter, if_pos rfl]
    have hr0 : r1 = [] := reaches_nil (hs ▸ k1)
    subst hr0
    constructor
    · rintro ⟨h, -⟩
      exact ⟨h, [], by rw [hs]; exact .nil, k2⟩
    · rintro ⟨h, -⟩
      exact ⟨h, h⟩
  · have hmem : ∀ p ∈ iterations op, ∀ r, Reaches subs p r → Writes w v r →
        r ∈ writtenBy subs op.tmpl.inds op.indices ∩ written w := by
      intro p hp r hr hw
      refine Finset.mem_inter.2 ⟨mem_accessed.2 ⟨hs, p, hp, hr⟩, ?_⟩
      obtain ⟨-, q, hq, h2⟩ := hw
      refine mem_accessed.2 ⟨?_, q, hq, h2⟩
      intro hc
      rw [hc] at h2
      have hr0 := reaches_nil h2
      subst hr0
      exact hs (nil_of_reaches hr)
    rw [if_neg (Finset.nonempty_iff_ne_empty.1 ⟨r1, hmem p1 hp1 r1 k1 k2⟩), Finset.mem_filter]
    constructor
    · rintro ⟨h, -, r, hr, hr2⟩
      obtain ⟨-, q, hq, h2⟩ := mem_accessed.1 (Finset.mem_inter.1 hr2).2
      exact ⟨h, r, element_reaches.1 hr, hv, q, hq, h2⟩
    · rintro ⟨h, r, hr, hw⟩
      exact ⟨h, h, r, element_reaches.2 hr, hmem p (mem_iterations.2 (.inr ⟨hi, h⟩)) r hr hw⟩

/-! ### The equations obtained -/

/-- An equation obtained from another one by the replacement of an access. -/
structure Piece (explicitate : Inst → Option Template) (op n w : Inst) (x : Template) (path : Path)
    (subs : List DimAccess) (ts : List AExpr) : Prop where
  explicit : explicitate w = some x
  at_path : op.tmpl.at path = some (.var w.writes subs)
  has : Has w.writes subs op.tmpl
  length : ts.length = x.inds
  exprs : ∀ e ∈ ts, e.NoDiv ∧ e.Below op.tmpl.inds
  tmpl : n.tmpl = putT op.tmpl path (x.rhs.mapInds ts)
  writes : n.writes = op.writes
  written : n.written = op.written
  sub : n.indices ⊆ op.indices
  empty : n.indices = ∅ → op.indices = ∅
  iters : ∀ p ∈ iterations n, p ∈ iterations op ∧ ∃ q ∈ iterations w, ∃ r, Reaches subs p r ∧ Reaches w.written q r ∧ Vals ts p q

theorem Piece.inds {op n w : Inst} {x : Template} {path : Path} {subs : List DimAccess} {ts : List AExpr}
    (h : Piece explicitate op n w x path subs ts) : n.tmpl.inds = op.tmpl.inds := by rw [h.tmpl, putT_inds]

theorem Piece.forIda (hW : Writers D dom explicitate writers) {op n w : Inst} {x : Template} {path : Path} {subs : List DimAccess}
    {ts : List AExpr} (h : Piece explicitate op n w x path subs ts) (hw : w ∈ writers) (hop : ForIda dom writers op) :
    ForIda dom writers n := by
  have hrhs := hW.explicit.rhs w x h.explicit
  have hin : InScope op.tmpl.inds (x.rhs.mapInds ts) := inScope_mapInds h.exprs (by rw [h.length]; exact hrhs)
  refine ⟨⟨fun p hp => ?_, ?_, ?_⟩, ?_, ?_, by rw [h.writes]; exact hop.own, ?_⟩
  · rw [h.inds]
    exact hop.wellFormed.rank p (h.sub hp)
  · rw [h.inds, hop.wellFormed.empty]
    refine ⟨fun he => ?_, h.empty⟩
    have := h.sub
    rw [he] at this
    exact Finset.subset_empty.1 this
  · rw [h.inds, h.written]
    exact hop.wellFormed.written
  · rw [h.inds, h.tmpl]
    unfold putT
    split
    · exact hop.lhs
    · exact inScope_put hin _ _ hop.lhs
  · rw [h.inds, h.tmpl]
    unfold putT
    split
    · exact inScope_put hin _ _ hop.rhs
    · exact hop.rhs
  · intro p hp v s r hh hr
    obtain ⟨hp', q, hq, r0, k1, k2, k3⟩ := h.iters p hp
    rw [h.tmpl] at hh
    rcases has_putT hh with hh | hh
    · exact hop.inBounds p hp' v s r hh hr
    · obtain ⟨s', rfl, hs'⟩ := readsIn_mapInds hh
      have hpl := readsIn_plain hrhs hs'
      have he := element_subst k3 (as := s') (by rw [h.length]; exact hpl)
      rw [element_reaches.2 hr] at he
      exact hW.inBounds w hw x h.explicit q hq v s' r (.inr hs') (element_reaches.1 he.symm)

theorem Piece.holds (hW : Writers D dom explicitate writers) {op n w : Inst} {x : Template} {path : Path} {subs : List DimAccess}
    {ts : List AExpr} (h : Piece explicitate op n w x path subs ts) {ρ : Nat → Point → α} (hw : Holds D ρ w)
    {p : Point} (hp : p ∈ iterations n) : HoldsAt D ρ n.tmpl p ↔ HoldsAt D ρ op.tmpl p := by
  obtain ⟨hp', q, hq, r0, k1, k2, k3⟩ := h.iters p hp
  have hx := hW.explicit.holds w x ρ q h.explicit (hw q hq)
  have hval : exprValue D ρ p (.var w.writes subs) = exprValue D ρ p (x.rhs.mapInds ts) := by
    rw [value_subst D ρ k3 (by rw [h.length]; exact hW.explicit.rhs w x h.explicit)]
    obtain ⟨y, y1, y2⟩ := hx
    rw [y2, ← y1, hW.explicit.lhs w x h.explicit]
    have e1 := element_reaches.2 k1
    have e2 := element_reaches.2 k2
    unfold element at e1 e2
    simp only [exprValue, e1, e2]
  have hat := h.at_path
  rw [h.tmpl]
  unfold Template.at at hat
  unfold HoldsAt putT
  by_cases hr : path.right = true
  · rw [if_pos hr] at hat
    simp only [if_pos hr, value_put D ρ p hval _ _ hat]
  · rw [if_neg hr] at hat
    simp only [if_neg hr, value_put D ρ p hval _ _ hat]

/-- The number of the times an iteration is found. -/
def times (l : List Inst) (p : Point) : Nat := (l.map fun n => (iterations n).val.count p).sum

theorem count_iterations (n : Inst) (p : Point) : (iterations n).val.count p = if p ∈ iterations n then 1 else 0 := by
  rw [Multiset.count_eq_of_nodup (iterations n).nodup]
  rfl

open Classical in
/-- The replacement by one of the writing equations. -/
theorem replaceBy_spec (S : Simplifier) (hS : Tidy S) (hK : KeepsOffsets S) {rep : Finset Point → List (Finset Point)}
    (hrep : StoredRanges rep) (hdis : DisjointRanges rep) (hW : Writers D dom explicitate writers)
    (hoff : ∀ w ∈ writers, OffsetAccess w.tmpl.inds w.written) {op : Inst} (hop : ForIda dom writers op)
    {a : Path × Nat × List DimAccess} (ha : a ∈ accesses op.tmpl) {w : Inst}
    (h : w ∈ writesTo writers a.2.1 (writtenBy a.2.2 op.tmpl.inds op.indices)) {x : Template} (hx : explicitate w = some x) :
    ∃ l, replaceBy S rep explicitate op a w = some l ∧
      (∀ n ∈ l, ∃ ts, Piece explicitate op n w x a.1 a.2.2 ts) ∧
      ∀ p, times l p = if p ∈ iterations op ∧ ∃ r, Reaches a.2.2 p r ∧ Writes w a.2.1 r then 1 else 0 := by
  obtain ⟨hat, hhas⟩ := access_spec ha
  have hsub : PlainAccess op.tmpl.inds a.2.2 := by
    rcases hhas with hh | hh
    · exact readsIn_plain hop.lhs hh
    · exact readsIn_plain hop.rhs hh
  obtain ⟨hw, hv, hit⟩ := writesTo_hit hW hop.wellFormed hsub h
  have hinds := hW.explicit.inds w x hx
  have hlhs := hW.explicit.lhs w x hx
  obtain ⟨p0, hp0, r0, k1, k2, q0, hq0, k3⟩ := hit
  have hwl := hW.wellFormed w hw
  obtain ⟨ts, t1, t2, t3, t4⟩ := replace_done S hS hK (by rw [hat, ← hv]) hsub hlhs (by rw [hinds]; exact hoff w hw)
    (by rw [hinds]; exact hwl.written) (iterations_length hop.wellFormed hp0)
    (by rw [hinds]; exact iterations_length hwl hq0) k1 k3
  have hpiece : ∀ n : Inst, n.tmpl = putT op.tmpl a.1 (x.rhs.mapInds ts) → n.writes = op.writes → n.written = op.written →
      n.indices ⊆ op.indices → (n.indices = ∅ → op.indices = ∅) →
      (∀ p ∈ iterations n, p ∈ iterations op ∧ ∃ r, Reaches a.2.2 p r ∧ Writes w a.2.1 r) →
      Piece explicitate op n w x a.1 a.2.2 ts := by
    intro n n1 n2 n3 n4 n5 n6
    refine ⟨hx, by rw [hat, hv], by rw [hv]; exact hhas, t1, t2, n1, n2, n3, n4, n5, fun p hp => ?_⟩
    obtain ⟨m1, r, m2, -, q, hq, m3⟩ := n6 p hp
    exact ⟨m1, q, hq, r, m2, m3, t4 p q r (iterations_length hop.wellFormed m1).ge
      (by rw [hinds]; exact iterations_length hwl hq) m2 m3⟩
  unfold replaceBy
  simp only [hx]
  unfold cloneWithReplacedAccess
  rw [t3]
  simp only
  by_cases hi : op.tmpl.inds = 0
  · have hie := hop.wellFormed.empty.1 hi
    have hite : iterations op = {[]} := by simp [iterations, hi]
    have hp00 : p0 = [] := by rw [hite] at hp0; simpa using hp0
    subst hp00
    rw [if_pos hie, if_pos rfl]
    have hin : iterations { op with tmpl := putT op.tmpl a.1 (x.rhs.mapInds ts), indices := ∅ } = {[]} := by
      simp [iterations, putT_inds, hi]
    refine ⟨_, rfl, ?_, ?_⟩
    · intro n hn
      rw [List.mem_singleton] at hn
      subst hn
      refine ⟨ts, hpiece _ rfl rfl rfl (by simp) (fun _ => hie) ?_⟩
      intro p hp
      rw [hin, Finset.mem_singleton] at hp
      subst hp
      exact ⟨hp0, r0, k1, k2, q0, hq0, k3⟩
    · intro p
      simp only [times, List.map_cons, List.map_nil, List.sum_cons, List.sum_nil, Nat.add_zero]
      rw [count_iterations, hin, hite]
      by_cases hp : p = []
      · subst hp
        rw [if_pos (by simp), if_pos ⟨by simp, r0, k1, k2, q0, hq0, k3⟩]
      · rw [if_neg (by simpa using hp), if_neg (fun hc => hp (by simpa using hc.1))]
  · have hg := mem_given hop.wellFormed hi hv ⟨p0, hp0, r0, k1, k2, q0, hq0, k3⟩
    have hne : op.indices ≠ ∅ := fun hc => hi (hop.wellFormed.empty.2 hc)
    generalize hG : (if op.indices = ∅ then ∅ else op.indices ∩
      readingIndices a.2.2 (writtenBy a.2.2 op.tmpl.inds op.indices ∩ written w) op.indices) = G at hg ⊢
    have hp0' : p0 ∈ op.indices := by
      rcases mem_iterations.1 hp0 with ⟨h1, -⟩ | ⟨-, h2⟩
      · exact absurd h1 hi
      · exact h2
    have hGne : G ≠ ∅ := Finset.nonempty_iff_ne_empty.1 ⟨p0, (hg p0).2 ⟨hp0', r0, k1, k2, q0, hq0, k3⟩⟩
    rw [if_neg hGne]
    simp only [if_neg hne]
    have hin : ∀ s : Finset Point, iterations { op with tmpl := putT op.tmpl a.1 (x.rhs.mapInds ts), indices := s } = s := by
      intro s
      simp [iterations, putT_inds, hi]
    refine ⟨_, rfl, ?_, ?_⟩
    · intro n hn
      obtain ⟨s, hs, rfl⟩ := List.mem_map.1 hn
      have hsG : ∀ p ∈ s, p ∈ G := fun p hp => (hrep.union G p).2 ⟨s, hs, hp⟩
      refine ⟨ts, hpiece _ rfl rfl rfl ?_ ?_ ?_⟩
      · intro p hp
        exact ((hg p).1 (hsG p hp)).1
      · intro hc
        exact absurd hc (hrep.nonempty G s hs)
      · intro p hp
        rw [hin] at hp
        obtain ⟨m1, m2⟩ := (hg p).1 (hsG p hp)
        exact ⟨mem_iterations.2 (.inr ⟨hi, m1⟩), m2⟩
    · intro p
      have hpp : (p ∈ iterations op ∧ ∃ r, Reaches a.2.2 p r ∧ Writes w a.2.1 r) ↔ p ∈ G := by
        rw [hg, mem_iterations]
        simp [hi]
      rw [if_congr hpp rfl rfl, if_congr (hrep.union G p) rfl rfl]
      have := sum_indicator (fun s : Finset Point => p ∈ s) (rep G) ((hdis G).imp fun h => h p)
      rw [← this]
      unfold times
      rw [List.map_map]
      congr 1
      apply List.map_congr_left
      intro s hs
      simp only [Function.comp]
      rw [count_iterations, hin]

theorem mapM_none {β γ : Type} {f : β → Option γ} : ∀ {es : List β}, es.mapM f = none → ∃ w ∈ es, f w = none
  | [], h => by simp at h
  | w :: es, h => by
    rw [List.mapM_cons] at h
    cases hf : f w with
    | none => exact ⟨w, by simp, hf⟩
    | some l =>
      cases hm : es.mapM f with
      | none =>
        obtain ⟨w', h1, h2⟩ := mapM_none hm
        exact ⟨w', by simp [h1], h2⟩
      | some ls => simp [hf, hm] at h

theorem times_append (l l' : List Inst) (p : Point) : times (l ++ l') p = times l p + times l' p := by
  simp [times]

theorem mapM_pieces {β : Type} {f : β → Option (List Inst)} : ∀ {es : List β} {ls : List (List Inst)}, es.mapM f = some ls →
    (∀ n ∈ ls.flatten, ∃ w ∈ es, ∃ l, f w = some l ∧ n ∈ l) ∧
    ∀ (p : Point) (g : β → Nat), (∀ w ∈ es, ∀ l, f w = some l → times l p = g w) → times ls.flatten p = (es.map g).sum
  | [], ls, h => by
    simp only [List.mapM_nil, Option.pure_def, Option.some.injEq] at h
    subst h
    simp [times]
  | w :: es, ls, h => by
    rw [List.mapM_cons] at h
    cases hf : f w with
    | none => simp [hf] at h
    | some l =>
      cases hm : es.mapM f with
      | none => simp [hf, hm] at h
      | some ls' =>
        simp only [hf, hm, Option.bind_eq_bind, Option.bind_some, Option.pure_def, Option.some.injEq] at h
        subst h
        obtain ⟨h1, h2⟩ := mapM_pieces hm
        refine ⟨fun n hn => ?_, fun p g hg => ?_⟩
        · rw [List.flatten_cons, List.mem_append] at hn
          rcases hn with hn | hn
          · exact ⟨w, by simp, l, hf, hn⟩
          · obtain ⟨w', k1, k2⟩ := h1 n hn
            exact ⟨w', by simp [k1], k2⟩
        · rw [List.flatten_cons, times_append, hg w (by simp) l hf,
            h2 p g fun w' hw' => hg w' (by simp [hw']), List.map_cons, List.sum_cons]

/-- What an iteration does. -/
theorem step_replaced (S : Simplifier) (hS : Tidy S) (hK : KeepsOffsets S) {rep : Finset Point → List (Finset Point)}
    (hrep : StoredRanges rep) (hdis : DisjointRanges rep) (hW : Writers D dom explicitate writers)
    (hoff : ∀ w ∈ writers, OffsetAccess w.tmpl.inds w.written) {op : Inst} (hop : ForIda dom writers op) {l : List Inst}
    (h : step S rep explicitate writers op = .replaced l) :
    (∀ n ∈ l, ∃ w ∈ writers, ∃ x path subs ts, Piece explicitate op n w x path subs ts) ∧
    ∀ p, times l p = if p ∈ iterations op then 1 else 0 := by
  classical
  unfold step at h
  simp only at h
  split at h
  · cases h
  · rename_i a hfind
    split at h
    · cases h
    · rename_i ls hls
      injection h with h
      subst h
      have ha : a ∈ accesses op.tmpl := List.mem_of_mem_filter (List.mem_of_find?_eq_some hfind)
      have hne := List.find?_some hfind
      simp only [Bool.not_eq_true', List.isEmpty_eq_false_iff] at hne
      obtain ⟨hat, hhas⟩ := access_spec ha
      have hsub : PlainAccess op.tmpl.inds a.2.2 := by
        rcases hhas with hh | hh
        · exact readsIn_plain hop.lhs hh
        · exact readsIn_plain hop.rhs hh
      have hx : ∀ w l, replaceBy S rep explicitate op a w = some l → ∃ x, explicitate w = some x := by
        intro w l hl
        unfold replaceBy at hl
        cases he : explicitate w with
        | none => simp [he] at hl
        | some x => exact ⟨x, rfl⟩
      obtain ⟨h1, h2⟩ := mapM_pieces hls
      constructor
      · intro n hn
        obtain ⟨w, hw, l, hl, hnl⟩ := h1 n hn
        obtain ⟨x, hxx⟩ := hx w l hl
        obtain ⟨l', k1, k2, -⟩ := replaceBy_spec S hS hK hrep hdis hW hoff hop ha hw hxx
        rw [k1] at hl
        injection hl with hl
        subst hl
        obtain ⟨ts, hts⟩ := k2 n hnl
        exact ⟨w, (writesTo_hit hW hop.wellFormed hsub hw).1, x, _, _, ts, hts⟩
      · intro p
        rw [h2 p (fun w => if p ∈ iterations op ∧ ∃ r, Reaches a.2.2 p r ∧ Writes w a.2.1 r then 1 else 0) ?_]
        · rw [sum_indicator (fun w => p ∈ iterations op ∧ ∃ r, Reaches a.2.2 p r ∧ Writes w a.2.1 r)]
          · refine if_congr ⟨fun ⟨_, _, hc, _⟩ => hc, fun hp => ?_⟩ rfl rfl
            obtain ⟨r, hr⟩ := plain_reaches hsub (iterations_length hop.wellFormed hp).ge
            obtain ⟨w0, hw0⟩ := List.exists_mem_of_ne_nil _ hne
            obtain ⟨m1, m2, -⟩ := writesTo_hit hW hop.wellFormed hsub hw0
            obtain ⟨w, hw, hwr⟩ := hW.covers a.2.1 ⟨w0, m1, m2⟩ r (hop.inBounds p hp _ _ r hhas hr)
            exact ⟨w, writesTo_mem hW hp hr hw hwr, hp, r, hr, hwr⟩
          · refine List.Pairwise.imp_of_mem ?_ (writesTo_nodup hW _ _)
            rintro w w' hw hw' hne' ⟨⟨-, r, k1, k2⟩, -, r', k3, k4⟩
            have := reaches_unique k1 k3
            subst this
            exact hne' (hW.once _ _ w (writesTo_hit hW hop.wellFormed hsub hw).1 w'
              (writesTo_hit hW hop.wellFormed hsub hw').1 k2 k4)
        · intro w hw l hl
          obtain ⟨x, hxx⟩ := hx w l hl
          obtain ⟨l', k1, -, k3⟩ := replaceBy_spec S hS hK hrep hdis hW hoff hop ha hw hxx
          rw [k1] at hl
          injection hl with hl
          subst hl
          exact k3 p

theorem step_independent (S : Simplifier) {rep : Finset Point → List (Finset Point)} (hW : Writers D dom explicitate writers)
    {op : Inst} (hop : ForIda dom writers op) (h : step S rep explicitate writers op = .independent) (v : Nat)
    (subs : List DimAccess) (hh : Has v subs op.tmpl) : ¬ Computed writers v := by
  intro hc
  unfold step at h
  simp only at h
  split at h
  · rename_i hfind
    obtain ⟨path, hpath⟩ := access_of_has hh
    have hvo : v ≠ op.writes := fun he => hop.own (he ▸ hc)
    have hr : (path, v, subs) ∈ reads op := by
      unfold reads
      rw [List.mem_filter]
      exact ⟨hpath, by simp [hvo]⟩
    have hnone := List.find?_eq_none.1 hfind _ hr
    have hsub : PlainAccess op.tmpl.inds subs := by
      rcases hh with hh | hh
      · exact readsIn_plain hop.lhs hh
      · exact readsIn_plain hop.rhs hh
    obtain ⟨p, hp⟩ := iterations_nonempty hop.wellFormed
    obtain ⟨r, hr⟩ := plain_reaches hsub (iterations_length hop.wellFormed hp).ge
    obtain ⟨w, hw, hwr⟩ := hW.covers v hc r (hop.inBounds p hp _ _ r hh hr)
    have hm := writesTo_mem hW hp hr hw hwr
    simp only [Bool.not_eq_true, Bool.not_eq_false', List.isEmpty_iff] at hnone
    rw [hnone] at hm
    cases hm
  · split at h <;> cases h

theorem step_fails (S : Simplifier) (hS : Tidy S) (hK : KeepsOffsets S) {rep : Finset Point → List (Finset Point)}
    (hrep : StoredRanges rep) (hdis : DisjointRanges rep) (hW : Writers D dom explicitate writers)
    (hoff : ∀ w ∈ writers, OffsetAccess w.tmpl.inds w.written) {op : Inst} (hop : ForIda dom writers op)
    (h : step S rep explicitate writers op = .fails) : ∃ w ∈ writers, explicitate w = none := by
  unfold step at h
  simp only at h
  split at h
  · cases h
  · rename_i a hfind
    split at h
    · rename_i hls
      have ha : a ∈ accesses op.tmpl := List.mem_of_mem_filter (List.mem_of_find?_eq_some hfind)
      obtain ⟨hat, hhas⟩ := access_spec ha
      have hsub : PlainAccess op.tmpl.inds a.2.2 := by
        rcases hhas with hh | hh
        · exact readsIn_plain hop.lhs hh
        · exact readsIn_plain hop.rhs hh
      obtain ⟨w, hw, hwn⟩ := mapM_none hls
      refine ⟨w, (writesTo_hit hW hop.wellFormed hsub hw).1, ?_⟩
      cases he : explicitate w with
      | none => rfl
      | some x =>
        obtain ⟨l', k1, -⟩ := replaceBy_spec S hS hK hrep hdis hW hoff hop ha hw he
        rw [k1] at hwn
        cases hwn
    · cases h

theorem count_listSum (l : List Inst) (p : Point) : ((l.map fun n => (iterations n).val).sum).count p = times l p := by
  induction l with
  | nil => simp [times]
  | cons n l ih =>
    rw [List.map_cons, List.sum_cons, Multiset.count_add, ih]
    simp [times]

theorem parts_eq {op : Inst} {l : List Inst} (h : ∀ p, times l p = if p ∈ iterations op then 1 else 0) :
    (l.map fun n => (iterations n).val).sum = (iterations op).val := by
  ext p
  rw [count_listSum, h p, count_iterations]

theorem map_parts {β : Type} (f : Point → β) (l : List Inst) :
    (l.map fun n => (iterations n).val.map f).sum = ((l.map fun n => (iterations n).val).sum).map f := by
  induction l with
  | nil => simp
  | cons n l ih => rw [List.map_cons, List.sum_cons, ih, List.map_cons, List.sum_cons, Multiset.map_add]

/-! ### The loop -/

theorem scalars_append (l l' : List Inst) : scalars (l ++ l') = scalars l + scalars l' := by simp [scalars]

theorem scalars_reverse (l : List Inst) : scalars l.reverse = scalars l := by
  unfold scalars
  rw [List.map_reverse, List.sum_reverse]

theorem loop_spec (S : Simplifier) (hS : Tidy S) (hK : KeepsOffsets S) {rep : Finset Point → List (Finset Point)}
    (hrep : StoredRanges rep) (hdis : DisjointRanges rep) (hW : Writers D dom explicitate writers)
    (hoff : ∀ w ∈ writers, OffsetAccess w.tmpl.inds w.written) {res : List Inst} : ∀ (k : Nat) (ops out : List Inst),
    loop S rep explicitate writers k ops out = .done res → (∀ op ∈ ops, ForIda dom writers op) →
    (∀ op ∈ out, ∀ v subs, Has v subs op.tmpl → ¬ Computed writers v) →
    (∀ op ∈ res, ∀ v subs, Has v subs op.tmpl → ¬ Computed writers v) ∧
    scalars res = scalars ops + scalars out ∧
    ∀ ρ, SolvesAll D ρ writers → (SolvesAll D ρ res ↔ SolvesAll D ρ ops ∧ SolvesAll D ρ out) := by
  intro k
  induction k with
  | zero =>
    intro ops out h _ hout
    cases ops with
    | nil =>
      simp only [loop, Outcome.done.injEq] at h
      subst h
      exact ⟨hout, by simp [scalars], fun ρ _ => by simp [SolvesAll]⟩
    | cons op ops => simp [loop] at h
  | succ k ih =>
    intro ops out h hops hout
    cases ops with
    | nil =>
      simp only [loop, Outcome.done.injEq] at h
      subst h
      exact ⟨hout, by simp [scalars], fun ρ _ => by simp [SolvesAll]⟩
    | cons op ops =>
      have hop := hops op (by simp)
      unfold loop at h
      split at h
      · cases h
      · rename_i hstep
        obtain ⟨i1, i2, i3⟩ := ih ops (out ++ [op]) h (fun o ho => hops o (by simp [ho])) (fun o ho => by
          rcases List.mem_append.1 ho with ho | ho
          · exact hout o ho
          · rw [List.mem_singleton.1 ho]
            exact step_independent S hW hop hstep)
        refine ⟨i1, ?_, fun ρ hρ => ?_⟩
        · rw [i2, scalars_append]
          simp only [scalars, List.map_cons, List.map_nil, List.sum_cons, List.sum_nil]
          rw [add_zero, ← add_assoc, add_right_comm, add_comm (List.sum _) (Multiset.map _ _)]
        · rw [i3 ρ hρ]
          simp only [SolvesAll, List.mem_cons, List.mem_append]
          constructor
          · rintro ⟨h1, h2⟩
            refine ⟨fun o ho => ?_, fun o ho => h2 o (.inl ho)⟩
            rcases ho with rfl | ho
            · exact h2 o (by simp)
            · exact h1 o ho
          · rintro ⟨h1, h2⟩
            refine ⟨fun o ho => h1 o (.inr ho), fun o ho => ?_⟩
            rcases ho with ho | ho
            · exact h2 o ho
            · exact h1 o (.inl (by simpa using ho))
      · rename_i l hstep
        obtain ⟨s1, s2⟩ := step_replaced S hS hK hrep hdis hW hoff hop hstep
        obtain ⟨i1, i2, i3⟩ := ih (l.reverse ++ ops) out h (fun o ho => by
          rcases List.mem_append.1 ho with ho | ho
          · obtain ⟨w, hw, x, path, subs, ts, hp⟩ := s1 o (List.mem_reverse.1 ho)
            exact hp.forIda hW hw hop
          · exact hops o (by simp [ho])) hout
        refine ⟨i1, ?_, fun ρ hρ => ?_⟩
        · rw [i2, scalars_append, scalars_reverse]
          have : scalars l = (iterations op).val.map fun p => (op.writes, element op.written p) := by
            rw [← parts_eq s2, ← map_parts]
            unfold scalars
            congr 1
            apply List.map_congr_left
            intro n hn
            obtain ⟨w, hw, x, path, subs, ts, hp⟩ := s1 n hn
            rw [hp.writes, hp.written]
          rw [this]
          simp [scalars]
        · rw [i3 ρ hρ]
          have key : SolvesAll D ρ l ↔ Holds D ρ op := by
            constructor
            · intro hl p hp
              have ht := s2 p
              rw [if_pos hp] at ht
              obtain ⟨n, hn, hpn⟩ : ∃ n ∈ l, p ∈ iterations n := by
                by_contra hc
                have : times l p = 0 := by
                  unfold times
                  rw [List.sum_eq_zero]
                  intro y hy
                  obtain ⟨n, hn, rfl⟩ := List.mem_map.1 hy
                  rw [count_iterations, if_neg]
                  exact fun hpn => hc ⟨n, hn, hpn⟩
                omega
              obtain ⟨w, hw, x, path, subs, ts, hpc⟩ := s1 n hn
              exact (hpc.holds hW (hρ w hw) hpn).1 (hl n hn p hpn)
            · intro ho n hn p hp
              obtain ⟨w, hw, x, path, subs, ts, hpc⟩ := s1 n hn
              exact (hpc.holds hW (hρ w hw) hp).2 (ho p (hpc.iters p hp).1)
          simp only [SolvesAll, List.mem_cons, List.mem_append, List.mem_reverse] at key ⊢
          constructor
          · rintro ⟨h1, h2⟩
            refine ⟨fun o ho => ?_, h2⟩
            rcases ho with rfl | ho
            · exact key.1 fun n hn => h1 n (.inl hn)
            · exact h1 o (.inr ho)
          · rintro ⟨h1, h2⟩
            refine ⟨fun o ho => ?_, h2⟩
            rcases ho with ho | ho
            · exact key.2 (h1 op (.inl rfl)) o ho
            · exact h1 o (.inr ho)

/-! ### Termination -/

open Classical in
/-- The weight of an expression at an iteration: that of the elements read, by their rank. -/
noncomputable def weight (writers : List Inst) (rank : Nat → Point → Nat) (B : Nat) (p : Point) : Expr → Nat
  | .var v subs => (element subs p).elim 0 fun r => if Computed writers v then B ^ rank v r else 0
  | .ind _ => 0
  | .cst _ => 0
  | .op _ a b => weight writers rank B p a + weight writers rank B p b

/-- The weight of an equation. -/
noncomputable def weightT (writers : List Inst) (rank : Nat → Point → Nat) (B : Nat) (t : Template) (p : Point) : Nat :=
  weight writers rank B p t.lhs + weight writers rank B p t.rhs

/-- The number of accesses. -/
def leaves : Expr → Nat
  | .var _ _ => 1
  | .ind _ => 0
  | .cst _ => 0
  | .op _ a b => leaves a + leaves b

theorem weight_put {rank : Nat → Point → Nat} {B : Nat} {p : Point} {x y : Expr} : ∀ (ss : List Bool) (e : Expr),
    e.at ss = some x →
    weight writers rank B p (e.put ss y) + weight writers rank B p x = weight writers rank B p e + weight writers rank B p y
  | [], e, h => by
    have : e = x := by cases e <;> simpa [Expr.at] using h
    subst this
    have : e.put [] y = y := by cases e <;> rfl
    rw [this]
    omega
  | b :: ss, .op f a c, h => by
    unfold Expr.at at h
    unfold Expr.put
    by_cases hb : b = true
    · rw [if_pos hb] at h ⊢
      have := weight_put (y := y) (rank := rank) (B := B) (p := p) ss c h
      simp only [weight]
      omega
    · rw [if_neg hb] at h ⊢
      have := weight_put (y := y) (rank := rank) (B := B) (p := p) ss a h
      simp only [weight]
      omega
  | _ :: _, .var _ _, h => by simp [Expr.at] at h
  | _ :: _, .ind _, h => by simp [Expr.at] at h
  | _ :: _, .cst _, h => by simp [Expr.at] at h

theorem weight_mapInds {rank : Nat → Point → Nat} {B : Nat} {p q : Point} {ts : List AExpr} (hv : Vals ts p q) {y : Expr}
    (h : InScope ts.length y) : weight writers rank B p (y.mapInds ts) = weight writers rank B q y := by
  induction y with
  | var v subs => simp only [Expr.mapInds, weight, element_subst hv h]
  | ind e => rfl
  | cst c => rfl
  | op f a b iha ihb => simp only [Expr.mapInds, weight, iha h.1, ihb h.2]

theorem weight_le {rank : Nat → Point → Nat} {B : Nat} (hB : 0 < B) {q : Point} {k : Nat} {y : Expr}
    (h : ∀ v subs r, ReadsIn v subs y → Computed writers v → Reaches subs q r → rank v r < k) :
    weight writers rank B q y * B ≤ leaves y * B ^ k := by
  induction y with
  | var v subs =>
    simp only [weight, leaves, one_mul]
    cases he : element subs q with
    | none => simp
    | some r =>
      simp only [Option.elim_some]
      split
      · rename_i hc
        have := h v subs r ⟨rfl, rfl⟩ hc (element_reaches.1 he)
        rw [← pow_succ]
        exact Nat.pow_le_pow_right hB this
      · simp
  | ind e => simp [weight]
  | cst c => simp [weight]
  | op f a b iha ihb =>
    have h1 := iha fun v subs r hr => h v subs r (.inl hr)
    have h2 := ihb fun v subs r hr => h v subs r (.inr hr)
    simp only [weight, leaves, Nat.add_mul]
    omega

theorem Piece.weight (hW : Writers D dom explicitate writers) {rank : Nat → Point → Nat} {B : Nat}
    (hB : ∀ w ∈ writers, ∀ x, explicitate w = some x → leaves x.rhs < B)
    (hrank : ∀ w ∈ writers, ∀ x, explicitate w = some x → ∀ q ∈ iterations w, ∀ r, Reaches w.written q r →
      ∀ v subs r', ReadsIn v subs x.rhs → Computed writers v → Reaches subs q r' → rank v r' < rank w.writes r)
    {op n w : Inst} {x : Template} {path : Path} {subs : List DimAccess} {ts : List AExpr}
    (h : Piece explicitate op n w x path subs ts) (hw : w ∈ writers) {p : Point} (hp : p ∈ iterations n) :
    weightT writers rank B n.tmpl p + 1 ≤ weightT writers rank B op.tmpl p := by
  obtain ⟨hp', q, hq, r, k1, k2, k3⟩ := h.iters p hp
  have hleaf := hB w hw x h.explicit
  have hBpos : 0 < B := by omega
  have hlt : IdaRep.weight writers rank B q x.rhs < B ^ rank w.writes r := by
    have := weight_le hBpos (hrank w hw x h.explicit q hq r k2)
    have h2 : leaves x.rhs * B ^ rank w.writes r < B * B ^ rank w.writes r :=
      Nat.mul_lt_mul_of_pos_right hleaf (Nat.pow_pos hBpos)
    rw [Nat.mul_comm B] at h2
    exact Nat.lt_of_mul_lt_mul_right (Nat.lt_of_le_of_lt this h2)
  have hx : IdaRep.weight writers rank B p (.var w.writes subs) = B ^ rank w.writes r := by
    simp only [IdaRep.weight, element_reaches.2 k1, Option.elim_some]
    rw [if_pos ⟨w, hw, rfl⟩]
  have hy : IdaRep.weight writers rank B p (x.rhs.mapInds ts) = IdaRep.weight writers rank B q x.rhs :=
    weight_mapInds k3 (by rw [h.length]; exact hW.explicit.rhs w x h.explicit)
  have hat := h.at_path
  rw [h.tmpl]
  unfold Template.at at hat
  unfold weightT putT
  by_cases hr : path.right = true
  · rw [if_pos hr] at hat
    simp only [if_pos hr]
    have := weight_put (writers := writers) (rank := rank) (B := B) (p := p) (y := x.rhs.mapInds ts) _ _ hat
    omega
  · rw [if_neg hr] at hat
    simp only [if_neg hr]
    have := weight_put (writers := writers) (rank := rank) (B := B) (p := p) (y := x.rhs.mapInds ts) _ _ hat
    omega

/-- A bound for the number of iterations. -/
noncomputable def effort (writers : List Inst) (rank : Nat → Point → Nat) (B : Nat) (l : List Inst) : Nat :=
  (l.map fun n => ((iterations n).val.map fun p => weightT writers rank B n.tmpl p + 1).sum).sum

theorem sum_parts (f : Point → Nat) (l : List Inst) :
    (l.map fun n => ((iterations n).val.map f).sum).sum = (((l.map fun n => (iterations n).val).sum).map f).sum := by
  induction l with
  | nil => simp
  | cons n l ih => rw [List.map_cons, List.sum_cons, ih, List.map_cons, List.sum_cons, Multiset.map_add, Multiset.sum_add]

theorem sum_list_le {f g : Inst → Nat} : ∀ (l : List Inst), (∀ n ∈ l, f n ≤ g n) → (l.map f).sum ≤ (l.map g).sum
  | [], _ => by simp
  | n :: l, h => by
    have h1 := sum_list_le l fun m hm => h m (by simp [hm])
    have h2 := h n (by simp)
    simp only [List.map_cons, List.sum_cons]
    omega

theorem card_le_sum (f : Point → Nat) (s : Finset Point) :
    s.card + (s.val.map f).sum = (s.val.map fun p => f p + 1).sum := by
  rw [Multiset.sum_map_add]
  simp [Nat.add_comm]

theorem loop_ends (S : Simplifier) (hS : Tidy S) (hK : KeepsOffsets S) {rep : Finset Point → List (Finset Point)}
    (hrep : StoredRanges rep) (hdis : DisjointRanges rep) (hW : Writers D dom explicitate writers)
    (hoff : ∀ w ∈ writers, OffsetAccess w.tmpl.inds w.written) (hex : ∀ w ∈ writers, explicitate w ≠ none)
    {rank : Nat → Point → Nat} {B : Nat}
    (hB : ∀ w ∈ writers, ∀ x, explicitate w = some x → leaves x.rhs < B)
    (hrank : ∀ w ∈ writers, ∀ x, explicitate w = some x → ∀ q ∈ iterations w, ∀ r, Reaches w.written q r →
      ∀ v subs r', ReadsIn v subs x.rhs → Computed writers v → Reaches subs q r' → rank v r' < rank w.writes r) :
    ∀ (k : Nat) (ops out : List Inst), (∀ op ∈ ops, ForIda dom writers op) → effort writers rank B ops ≤ k →
      ∃ res, loop S rep explicitate writers k ops out = .done res := by
  intro k
  have hpos : ∀ op, ForIda dom writers op → 1 ≤ (iterations op).card := by
    intro op hop
    exact Finset.card_pos.2 (iterations_nonempty hop.wellFormed)
  induction k with
  | zero =>
    intro ops out hops he
    cases ops with
    | nil => exact ⟨out, rfl⟩
    | cons op ops =>
      exfalso
      have := card_le_sum (weightT writers rank B op.tmpl) (iterations op)
      have := hpos op (hops op (by simp))
      simp only [effort, List.map_cons, List.sum_cons] at he
      omega
  | succ k ih =>
    intro ops out hops he
    cases ops with
    | nil => exact ⟨out, rfl⟩
    | cons op ops =>
      have hop := hops op (by simp)
      have hc := card_le_sum (weightT writers rank B op.tmpl) (iterations op)
      have hp := hpos op hop
      simp only [effort, List.map_cons, List.sum_cons] at he
      unfold loop
      split
      · rename_i hstep
        obtain ⟨w, hw, hn⟩ := step_fails S hS hK hrep hdis hW hoff hop hstep
        exact absurd hn (hex w hw)
      · refine ih _ _ (fun o ho => hops o (by simp [ho])) ?_
        unfold effort
        omega
      · rename_i l hstep
        obtain ⟨s1, s2⟩ := step_replaced S hS hK hrep hdis hW hoff hop hstep
        refine ih _ _ (fun o ho => ?_) ?_
        · rcases List.mem_append.1 ho with ho | ho
          · obtain ⟨w, hw, x, path, subs, ts, hpc⟩ := s1 o (List.mem_reverse.1 ho)
            exact hpc.forIda hW hw hop
          · exact hops o (by simp [ho])
        · have h1 : (l.map fun n => ((iterations n).val.map fun p => weightT writers rank B n.tmpl p + 1).sum).sum ≤
              (l.map fun n => ((iterations n).val.map (weightT writers rank B op.tmpl)).sum).sum := by
            refine sum_list_le l fun n hn => ?_
            obtain ⟨w, hw, x, path, subs, ts, hpc⟩ := s1 n hn
            exact Multiset.sum_map_le_sum_map _ _ fun p hp => hpc.weight hW hB hrank hw hp
          rw [sum_parts, parts_eq s2] at h1
          unfold effort
          rw [List.map_append, List.sum_append, List.map_reverse, List.sum_reverse]
          omega

end

end Marco.IdaRep
