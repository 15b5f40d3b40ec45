import Verif.Lemmas.EquationAccesses

/-!
# Helper lemmas for C102: without reductions the accesses reach nothing else
-/

namespace Marco.EqAcc
open Marco Spec IndexSet DimAccess AccessFn Props Marco.Spec.EqAcc

/-- The access function built from affine accesses and plain ranges reaches exactly their values. -/
theorem build_slices {S : Simplifier} (hS : Tidy S) {n : Nat} {rs : List DimAccess} {L : List (Range ⊕ AExpr)}
    (hL : List.Forall₂ SliceOf rs L) (hne : rs ≠ []) (hv : ∀ r, .inl r ∈ L → r.Valid)
    (he : ∀ e, .inr e ∈ L → e.NoDiv ∧ e.Below n) {p : Point} (hp : p.length = n) :
    ∃ s, (build S n rs).mapPoint p = some s ∧ ∀ x, Has s x ↔ List.Forall₂ (SlDen p) L x := by
  obtain ⟨φ, hφ⟩ : ∃ φ : AExpr → AExpr, φ = fun e =>
      S.fn (n + (slRanges L).length) (S.fn (n + (slRanges L).length) e) := ⟨_, rfl⟩
  have hb : build S n rs = dispatch n ((slExprs n 0 L).map fun e => fromExt (slFake n 0 L) (φ e)) := by
    have ex := extExprs_slices n hL []
    simp only [List.length_nil, List.nil_append] at ex
    simp only [AccessFn.build, ex, fromExtendedMap, slFake_length, Nat.add_sub_cancel, List.map_map, hφ,
      Function.comp_def]
  have hev : ∀ e, .inr e ∈ L → (φ e).eval p = e.eval p := by
    intro e h
    obtain ⟨h1, h2⟩ := he e h
    obtain ⟨v, hv'⟩ := AExpr.eval_isSome h1 h2 hp.ge
    have hb1 : (φ e).Below p.length := by rw [hφ, hp]; exact hS.below _ _ _ (hS.below _ _ _ h2)
    have hlen : n + (slRanges L).length ≤ (p ++ List.replicate (slRanges L).length 0).length := by simp [hp]
    have := S.eval_eq _ _ _ _ hlen (S.eval_eq _ _ _ _ hlen (eval_mono (z := List.replicate (slRanges L).length 0) hv'))
    rw [hv', ← eval_append hb1 (z := List.replicate (slRanges L).length 0), hφ]
    exact this
  have hN : ∀ e, .inr e ∈ L → (φ e).NoDiv := by
    intro e h
    rw [hφ]
    exact S.noDiv _ _ (S.noDiv _ _ (he e h).1)
  have sl1 : List.Forall₂ SliceOf ((slExprs n 0 L).map fun e => fromExt (slFake n 0 L) (φ e)) (L.map (Sum.map id φ)) := by
    refine fromExt_slices (n := n) (n' := n) ?_ ?_ L 0 ?_ ?_ ?_
    · intro d hd; exact slFake_lookup_lt _ _ _ _ (by omega)
    · intro e he; rw [hφ]; exact hS.below _ _ _ (hS.below _ _ _ he)
    · intro e h; exact (he e h).2
    · intro i _; rw [hφ]; simp only [hS.dim]
    · intro i; exact slFake_lookup _ _ _ _
  have hne' : ((slExprs n 0 L).map fun e => fromExt (slFake n 0 L) (φ e)) ≠ [] := by
    intro hc
    have h1 := sl1.length_eq
    have h2 := hL.length_eq
    rw [hc] at h1
    simp only [List.length_nil, List.length_map] at h1
    exact hne (List.length_eq_zero_iff.1 (by omega))
  have hg : ∃ s, genericMap ((slExprs n 0 L).map fun e => fromExt (slFake n 0 L) (φ e)) p = some s ∧
      ∀ x, Has s x ↔ List.Forall₂ (SlDen p) L x := by
    obtain ⟨s, s1, -, s3⟩ := slices_genericMap sl1 hne' (p := p) (by
      intro r hr
      obtain ⟨l, hl, hl2⟩ := List.mem_map.1 hr
      cases l with
      | inl r' => cases hl2; exact hv _ hl
      | inr e => cases hl2) (by
      intro e hr
      obtain ⟨l, hl, hl2⟩ := List.mem_map.1 hr
      cases l with
      | inl r' => cases hl2
      | inr e =>
        cases hl2
        refine ⟨AExpr.noDiv_divOk (hN _ hl) p, ?_⟩
        rw [hev _ hl]
        exact AExpr.eval_isSome (he _ hl).1 (he _ hl).2 hp.ge)
    exact ⟨s, s1, fun x => by rw [s3, slDen_map hev]⟩
  rw [hb]
  by_cases hr : slRanges L = []
  · -- all results are affine
    have hex : ∃ es : List AExpr, L = es.map Sum.inr := by
      clear hL hv he hφ hb hev hN sl1 hne' hg hne
      induction L with
      | nil => exact ⟨[], rfl⟩
      | cons l L ih =>
        cases l with
        | inl r => simp [slRanges_inl] at hr
        | inr e =>
          obtain ⟨es, rfl⟩ := ih (by simpa [slRanges_inr] using hr)
          exact ⟨e :: es, rfl⟩
    obtain ⟨es, rfl⟩ := hex
    have hE : Exprs ((slExprs n 0 (es.map Sum.inr)).map fun e => fromExt (slFake n 0 (es.map Sum.inr)) (φ e))
        (es.map φ) := by
      generalize ((slExprs n 0 (es.map Sum.inr)).map fun e => fromExt (slFake n 0 (es.map Sum.inr)) (φ e)) = R at sl1
      clear hL hv he hb hev hN hne' hg hr hφ
      induction es generalizing R with
      | nil => cases sl1; exact .nil
      | cons e es ih =>
        cases sl1 with
        | cons h1 h2 =>
          cases h1 with
          | affine h1 => exact .cons h1 (ih _ h2)
    have hes : es ≠ [] := by
      rintro rfl
      cases hL
      exact hne rfl
    obtain ⟨q, hq⟩ := vals_exists (n := n) (es := es) (p := p) (fun e h => he e (List.mem_map.2 ⟨e, h, rfl⟩)) hp.ge
    have hq' : Vals (es.map φ) p q := by
      have hev' : ∀ e ∈ es, (φ e).eval p = e.eval p := fun e h => hev e (List.mem_map.2 ⟨e, h, rfl⟩)
      clear hE hes hL hv he hb hev hN sl1 hne' hg hr hφ
      induction hq with
      | nil => exact .nil
      | cons h _ ih => exact .cons (by rw [hev' _ (by simp)]; exact h) (ih fun e h => hev' e (by simp [h]))
    have hqx : ∀ x, List.Forall₂ (SlDen p) (es.map Sum.inr) x ↔ x = q := by
      intro x
      rw [List.forall₂_map_left_iff]
      constructor
      · intro h; exact vals_unique h hq
      · rintro rfl; exact hq
    generalize hR : ((slExprs n 0 (es.map Sum.inr)).map fun e => fromExt (slFake n 0 (es.map Sum.inr)) (φ e)) = R at *
    have haff : ∃ s, ((affinePoint (buildAffineMap n R) p).map fun q => IndexSet.ofPoints [q]) = some s ∧
        ∀ x, Has s x ↔ List.Forall₂ (SlDen p) (es.map Sum.inr) x := by
      have hm : (buildAffineMap n R).results = es.map φ := filterMap_of_exprs hE
      rw [affinePoint_vals (m := buildAffineMap n R) (p := p) (q := q) hp.ge (by rw [hm]; exact hq')]
      refine ⟨_, rfl, fun x => ?_⟩
      rw [(ofPoint_single (vals_ne_nil hq hes)).2, hqx]
    unfold dispatch
    split_ifs with h1 h2 h3 h4
    · simp only [Bool.and_eq_true, List.isEmpty_iff] at h1
      exact absurd h1.2 hne'
    · exact haff
    · exact hg
    · exact haff
    · exact hg
  · obtain ⟨-, -, -, m1⟩ := dispatch_slices n sl1 (by rw [slRanges_map]; exact hr)
    rw [m1]
    exact hg

/-- A plain subscript outside of reductions is an affine expression with the value of the subscript. -/
theorem dimAccess_affine {inds : List Nat} {p : Point} (hp : p.length = inds.length) :
    ∀ (e : Exp) {a : DimAccess}, Plain e → dimAccess inds [] e = .ok a →
    ∃ w ae, value (atPoint inds p) e = some (.int w) ∧ affineExpr a = some ae ∧ ae.NoDiv ∧ ae.Below inds.length ∧
      ae.eval p = some w
  | .cst v, a, _, h => by
    simp only [dimAccess, Except.ok.injEq] at h
    subst h
    exact ⟨v, .const v, rfl, rfl, trivial, trivial, rfl⟩
  | .arg id, a, _, h => by
    unfold dimAccess at h
    split_ifs at h with hi
    · simp only [Except.ok.injEq] at h
      subst h
      have hl : inds.idxOf id < p.length := by rw [hp]; exact List.idxOf_lt_length_of_mem hi
      refine ⟨p[inds.idxOf id], .dim (inds.idxOf id), ?_, rfl, trivial, by rw [hp] at hl; exact hl,
        List.getElem?_eq_getElem hl⟩
      simp only [value, atPoint, if_pos hi, List.getElem?_eq_getElem hl, Option.map_some]
    · cases h
  | .neg e, a, hpl, h => by
    obtain ⟨b, hb, h⟩ := except_bind h
    simp only [Except.ok.injEq] at h
    subst h
    obtain ⟨w, ae, h1, h2, h3, h4, h5⟩ := dimAccess_affine hp e hpl hb
    refine ⟨-w, .mul (.const (-1)) ae, by simp [value, h1], by simp [affineExpr, h2], ⟨trivial, h3⟩, ⟨trivial, h4⟩, ?_⟩
    simp [AExpr.eval, h5]
  | .bin o l r, a, hpl, h => by
    obtain ⟨b, hb, h⟩ := except_bind h
    obtain ⟨c, hc, h⟩ := except_bind h
    obtain ⟨hdiv, hp1, hp2⟩ := hpl
    obtain ⟨w1, a1, h1, h2, h3, h4, h5⟩ := dimAccess_affine hp l hp1 hb
    obtain ⟨w2, a2, i1, i2, i3, i4, i5⟩ := dimAccess_affine hp r hp2 hc
    cases o with
    | add =>
      simp only [Except.ok.injEq] at h
      subst h
      exact ⟨w1 + w2, .add a1 a2, by simp [value, h1, i1, binVal], by simp [affineExpr, h2, i2], ⟨h3, i3⟩, ⟨h4, i4⟩,
        by simp [AExpr.eval, h5, i5]⟩
    | sub =>
      simp only [Except.ok.injEq] at h
      subst h
      refine ⟨w1 - w2, .add a1 (.mul a2 (.const (-1))), by simp [value, h1, i1, binVal], by simp [affineExpr, h2, i2],
        ⟨h3, i3, trivial⟩, ⟨h4, i4, trivial⟩, ?_⟩
      simp only [AExpr.eval, h5, i5, Option.bind_eq_bind, Option.bind_some, Option.some.injEq]
      omega
    | mul =>
      simp only [Except.ok.injEq] at h
      subst h
      exact ⟨w1 * w2, .mul a1 a2, by simp [value, h1, i1, binVal], by simp [affineExpr, h2, i2], ⟨h3, i3⟩, ⟨h4, i4⟩,
        by simp [AExpr.eval, h5, i5]⟩
    | div => exact absurd rfl hdiv
  | .rng .., _, hp, _ => absurd hp (by simp [Plain])
  | .rrng .., _, hp, _ => absurd hp (by simp [Plain])
  | .op _, _, hp, _ => absurd hp (by simp [Plain])
  | .get .., _, hp, _ => absurd hp (by simp [Plain])
  | .gget, _, hp, _ => absurd hp (by simp [Plain])
  | .sub .., _, hp, _ => absurd hp (by simp [Plain])
  | .cast _, _, hp, _ => absurd hp (by simp [Plain])
  | .red .., _, hp, _ => absurd hp (by simp [Plain])

/-- The affine accesses have the values. -/
def AffVals (n : Nat) (p : Point) (ds : List DimAccess) (ws : Point) : Prop :=
  List.Forall₂ (fun d w => ∃ ae, affineExpr d = some ae ∧ ae.NoDiv ∧ ae.Below n ∧ ae.eval p = some w) ds ws

theorem dimAccesses_affine {inds : List Nat} {p : Point} (hp : p.length = inds.length) {idx : List Exp}
    (hpl : ∀ e ∈ idx, Plain e) {es : List DimAccess} (h : dimAccesses inds [] idx = .ok es) (sel : Point) :
    ∃ ws, Locates (atPoint inds p) idx sel (ws ++ sel) ∧ AffVals inds.length p es.reverse ws := by
  have h' : List.Forall₂ (fun a b => dimAccess inds [] a = .ok b) idx es.reverse := by
    have := mapM_ok h
    rw [← List.forall₂_reverse_iff] at this
    simpa using this
  clear h
  generalize es.reverse = L at h'
  induction h' with
  | nil => exact ⟨[], .nil sel, .nil⟩
  | cons h1 _ ih =>
    obtain ⟨ws, i1, i2⟩ := ih fun e he => hpl e (by simp [he])
    obtain ⟨w, ae, j1, j2⟩ := dimAccess_affine hp _ (hpl _ (by simp)) h1
    exact ⟨w :: ws, .int j1 i1, .cons ⟨ae, j2⟩ i2⟩

theorem affVals_slices {n : Nat} {p : Point} {ds : List DimAccess} {ws : Point} (h : AffVals n p ds ws) :
    ∃ es : List AExpr, List.Forall₂ SliceOf ds (es.map Sum.inr) ∧ (∀ e ∈ es, e.NoDiv ∧ e.Below n) ∧ Vals es p ws := by
  induction h with
  | nil => exact ⟨[], .nil, by simp, .nil⟩
  | cons h _ ih =>
    obtain ⟨es, i1, i2, i3⟩ := ih
    obtain ⟨ae, a1, a2, a3, a4⟩ := h
    refine ⟨ae :: es, .cons (.affine a1) i1, ?_, .cons a4 i3⟩
    intro e he
    rcases List.mem_cons.1 he with rfl | he
    · exact ⟨a2, a3⟩
    · exact i2 e he

theorem ranges_slices : ∀ shape : List Nat, List.Forall₂ SliceOf (shape.map fun d : Nat => .range ⟨0, (d : Int)⟩)
    (shape.map fun d : Nat => .inl ⟨0, (d : Int)⟩)
  | [] => .nil
  | _ :: shape => .cons (.range _) (ranges_slices shape)

mutual
/-- Everything reached by an access found is read. -/
theorem accesses_exact {S : Simplifier} (hS : Tidy S) {inds : List Nat} {shapes : Nat → List Nat} {p : Point}
    (hp : p.length = inds.length) :
    ∀ (e : Exp) {ds : List DimAccess} {path : List Nat} {as : List Access} {pre : Point} {a : Access} {x : Point},
      Simple inds e → NoRed e → Typed shapes e → accesses S inds e [] ds path = .ok as → AffVals inds.length p ds.reverse pre →
      a ∈ as → x ≠ [] → InShape (shapes a.var) x → Reaches a p a.var x → ∃ rest, Reads (atPoint inds p) e (pre ++ rest) a.var x
  | .arg _, _, _, as, _, a, _, _, _, _, h, _, ha, _, _, _ => by cases h; simp at ha
  | .cst _, _, _, as, _, a, _, _, _, _, h, _, ha, _, _, _ => by cases h; simp at ha
  | .rng .., _, _, as, _, a, _, _, _, _, h, _, ha, _, _, _ => by cases h; simp at ha
  | .rrng .., _, _, as, _, a, _, _, _, _, h, _, ha, _, _, _ => by cases h; simp at ha
  | .gget, _, _, as, _, a, _, _, _, _, h, _, ha, _, _, _ => by cases h; simp at ha
  | .neg e, _, _, as, _, a, _, hs, hn, ht, h, _, ha, hx, hsh, hr => by
    obtain ⟨rest, h⟩ := accesses_exact hS hp e (pre := []) hs hn ht h .nil ha hx hsh hr
    exact ⟨[], .neg h⟩
  | .bin o l r, _, _, as, _, a, _, hs, hn, ht, h, _, ha, hx, hsh, hr => by
    simp only [accesses] at h
    obtain ⟨la, hla, h⟩ := except_bind h
    obtain ⟨ra, hra, h⟩ := except_bind h
    cases h
    rcases List.mem_append.1 ha with ha | ha
    · obtain ⟨rest, h⟩ := accesses_exact hS hp l (pre := []) hs.1 hn.1 ht.1 hla .nil ha hx hsh hr
      exact ⟨[], .lhs h⟩
    · obtain ⟨rest, h⟩ := accesses_exact hS hp r (pre := []) hs.2 hn.2 ht.2 hra .nil ha hx hsh hr
      exact ⟨[], .rhs h⟩
  | .op args, _, _, as, _, a, _, hs, hn, ht, h, _, ha, hx, hsh, hr => by
    obtain ⟨e, he, sel, h⟩ := accessesL_exact hS hp args hs hn ht h ha hx hsh hr
    exact ⟨[], .op he h⟩
  | .get w shape, ds, path, as, pre, a, x, hs, hn, ht, h, hpre, ha, hx, hsh, hr => by
    simp only [accesses, getAccess] at h
    split_ifs at h with hpos
    simp only [Except.ok.injEq] at h
    subst h
    rw [List.mem_singleton] at ha
    subst ha
    simp only at hsh hr ⊢
    obtain ⟨-, hr⟩ := hr
    obtain ⟨s, hs, hxs⟩ := hr hx
    obtain ⟨es, e1, e2, e3⟩ := affVals_slices hpre
    have hsl := List.rel_append e1 (ranges_slices (shape.drop ds.length))
    have hlen : es.length = ds.length := by simpa using e1.length_eq.symm
    have ht' : shape = shapes w := ht
    obtain ⟨s', b1, b2⟩ := build_slices hS (n := inds.length) hsl (by
      intro hc
      have h1 := congrArg List.length hc
      simp only [List.length_append, List.length_reverse, List.length_map, List.length_drop, List.length_nil] at h1
      have h2 := hsh.length_eq
      rw [← ht'] at h2
      have : x.length ≠ 0 := by simpa using hx
      omega) (by
      intro r hr
      rcases List.mem_append.1 hr with hr | hr
      · simp at hr
      · obtain ⟨d, hd, hd2⟩ := List.mem_map.1 hr
        cases hd2
        have := List.all_eq_true.1 hpos d hd
        simp only [decide_eq_true_eq] at this
        simp [Range.Valid]; omega) (by
      intro e he
      rcases List.mem_append.1 he with he | he
      · obtain ⟨e', he', h⟩ := List.mem_map.1 he
        cases h
        exact e2 e he'
      · obtain ⟨d, hd, hd2⟩ := List.mem_map.1 he
        cases hd2) hp
    rw [hs] at b1
    obtain rfl := Option.some.inj b1
    have hden := (b2 x).1 hxs
    obtain ⟨x1, x2, rfl, hx1⟩ : ∃ x1 x2, x = x1 ++ x2 ∧ List.Forall₂ (SlDen p) (es.map Sum.inr) x1 := by
      refine ⟨x.take es.length, x.drop es.length, (List.take_append_drop _ _).symm, ?_⟩
      have := List.forall₂_take es.length hden
      rwa [List.take_left' (by simp)] at this
    have : x1 = pre := by
      rw [List.forall₂_map_left_iff] at hx1
      exact vals_unique hx1 e3
    subst this
    exact ⟨x2, .get (by rw [ht']; exact hsh)⟩
  | .sub src idx, ds, path, as, pre, a, x, hs, hn, ht, h, hpre, ha, hx, hsh, hr => by
    rw [accesses] at h
    obtain ⟨es, hes, h⟩ := except_bind h
    have h' : accesses S inds src [] (ds ++ es) path = .ok as := by
      split at h
      · cases h
      · exact h
    obtain ⟨ws, l1, l2⟩ := dimAccesses_affine hp hs.2 hes []
    obtain ⟨rest, hr'⟩ := accesses_exact hS hp src (pre := ws ++ pre) hs.1 hn ht h' (by
      rw [List.reverse_append]
      exact List.rel_append l2 hpre) ha hx hsh hr
    obtain ⟨ws', l1', l2'⟩ := dimAccesses_affine hp hs.2 hes (pre ++ rest)
    have : ws' = ws := by
      clear hr' l1 l1'
      generalize es.reverse = L at l2 l2'
      unfold AffVals at l2 l2'
      induction l2 generalizing ws' with
      | nil => cases l2'; rfl
      | cons h1 _ ih =>
        cases l2' with
        | cons h2 h3 =>
          obtain ⟨_, a1, -, -, a4⟩ := h1
          obtain ⟨_, b1, -, -, b4⟩ := h2
          rw [a1] at b1
          cases b1
          rw [a4] at b4
          cases b4
          rw [ih _ h3]
    subst this
    exact ⟨rest, .sub l1' (by simpa using hr')⟩
  | .cast src, ds, path, as, pre, a, x, hs, hn, ht, h, hpre, ha, hx, hsh, hr => by
    obtain ⟨rest, h⟩ := accesses_exact hS hp src hs hn ht h hpre ha hx hsh hr
    exact ⟨rest, .cast h⟩
  | .red .., _, _, _, _, _, _, _, hn, _, _, _, _, _, _, _ => absurd hn (by simp [NoRed])
termination_by e => sizeOf e
/-- The same for the operands. -/
theorem accessesL_exact {S : Simplifier} (hS : Tidy S) {inds : List Nat} {shapes : Nat → List Nat} {p : Point}
    (hp : p.length = inds.length) :
    ∀ (es : List Exp) {path : List Nat} {i : Nat} {as : List Access} {a : Access} {x : Point},
      SimpleL inds es → NoRedL es → TypedL shapes es → accessesL S inds es [] path i = .ok as →
      a ∈ as → x ≠ [] → InShape (shapes a.var) x → Reaches a p a.var x →
      ∃ e ∈ es, ∃ sel, Reads (atPoint inds p) e sel a.var x
  | [], _, _, as, _, _, _, _, _, h, ha, _, _, _ => by cases h; simp at ha
  | e :: es, path, i, as, a, x, hs, hn, ht, h, ha, hx, hsh, hr => by
    rw [accessesL] at h
    obtain ⟨la, hla, h⟩ := except_bind h
    obtain ⟨ra, hra, h⟩ := except_bind h
    cases h
    rcases List.mem_append.1 ha with ha | ha
    · obtain ⟨rest, h⟩ := accesses_exact hS hp e (pre := []) hs.1 hn.1 ht.1 hla .nil ha hx hsh hr
      exact ⟨e, by simp, _, h⟩
    · obtain ⟨e', he, sel, h⟩ := accessesL_exact hS hp es hs.2 hn.2 ht.2 hra ha hx hsh hr
      exact ⟨e', by simp [he], sel, h⟩
termination_by es => sizeOf es
end

end Marco.EqAcc
