import Verif.Lemmas.CombineSlices
import Verif.Spec.EquationAccesses

/-!
# Helper lemmas for C102: building access functions from dimension accesses
-/

namespace Marco.EqAcc
open Marco Spec IndexSet DimAccess AccessFn Props

/-- No divisions, and no dependencies among the dimensions. -/
def NoDivD : DimAccess → Prop
  | .add a b => NoDivD a ∧ NoDivD b
  | .sub a b => NoDivD a ∧ NoDivD b
  | .mul a b => NoDivD a ∧ NoDivD b
  | .div _ _ => False
  | .indices _ _ _ deps => deps = []
  | _ => True

theorem depSpaces_noDiv {a : DimAccess} (h : NoDivD a) : a.depSpaces = [] := by
  induction a with
  | const v => rfl
  | dim d => rfl
  | add a b iha ihb | sub a b iha ihb | mul a b iha ihb => simp [depSpaces, iha h.1, ihb h.2]
  | div a b => exact absurd h (by simp [NoDivD])
  | range r => rfl
  | indices k s d deps => have h : deps = [] := h; simp [depSpaces, h]

/-- The accesses that denote something can be mapped. -/
theorem map_defined {p : Point} {a : DimAccess} (hn : NoDivD a) (hok : DimOk a) {v : Int} (h : Denotes p [] a v) :
    ∃ s, DimAccess.map a p [] = some s := by
  induction h with
  | const v => exact ⟨_, rfl⟩
  | dim h => exact ⟨_, by simp only [DimAccess.map, h, Option.map_some]; rfl⟩
  | add h1 h2 ih1 ih2 =>
    cases hok with
    | add o1 o2 =>
      obtain ⟨s, hs⟩ := ih1 hn.1 o1
      obtain ⟨t, ht⟩ := ih2 hn.2 o2
      have := binaryOp_isSome (f := fun x y => some (x + y)) (map_spec o1 hs).1 (map_spec o2 ht).1 (by simp)
      exact ⟨_, by simp only [DimAccess.map, hs, ht]; exact (Option.some_get this).symm⟩
  | sub h1 h2 ih1 ih2 =>
    cases hok with
    | sub o1 o2 =>
      obtain ⟨s, hs⟩ := ih1 hn.1 o1
      obtain ⟨t, ht⟩ := ih2 hn.2 o2
      have := binaryOp_isSome (f := fun x y => some (x - y)) (map_spec o1 hs).1 (map_spec o2 ht).1 (by simp)
      exact ⟨_, by simp only [DimAccess.map, hs, ht]; exact (Option.some_get this).symm⟩
  | mul h1 h2 ih1 ih2 =>
    cases hok with
    | mul o1 o2 =>
      obtain ⟨s, hs⟩ := ih1 hn.1 o1
      obtain ⟨t, ht⟩ := ih2 hn.2 o2
      have := binaryOp_isSome (f := fun x y => some (x * y)) (map_spec o1 hs).1 (map_spec o2 ht).1 (by simp)
      exact ⟨_, by simp only [DimAccess.map, hs, ht]; exact (Option.some_get this).symm⟩
  | div => exact absurd hn (by simp [NoDivD])
  | range h => exact ⟨_, rfl⟩
  | @indices key s d q v h1 h2 =>
    cases hok with
    | indices o1 o2 =>
      obtain ⟨s', hs, -⟩ := foldlM_addBox d o2 s.ranges IndexSet.empty (ranges_ranked o1) (setOk_empty 1)
      exact ⟨s', by simpa [DimAccess.map] using hs⟩
  | indicesDep h => exact absurd hn h

/-- The value of an affine access is that of its expression. -/
theorem denotes_eval {p : Point} {a : DimAccess} {e : AExpr} (hn : NoDivD a) (he : a.affineExpr = some e) {v : Int}
    (h : Denotes p [] a v) : e.eval p = some v ∧ e.NoDiv := by
  induction h generalizing e with
  | const v => simp only [affineExpr, Option.some.injEq] at he; subst he; exact ⟨rfl, trivial⟩
  | dim h => simp only [affineExpr, Option.some.injEq] at he; subst he; exact ⟨h, trivial⟩
  | add h1 h2 ih1 ih2 | mul h1 h2 ih1 ih2 =>
    simp only [affineExpr, Option.bind_eq_bind, Option.bind_eq_some_iff, Option.some.injEq] at he
    obtain ⟨x, hx, y, hy, rfl⟩ := he
    obtain ⟨a1, a2⟩ := ih1 hn.1 hx
    obtain ⟨b1, b2⟩ := ih2 hn.2 hy
    exact ⟨by simp [AExpr.eval, a1, b1], a2, b2⟩
  | sub h1 h2 ih1 ih2 =>
    simp only [affineExpr, Option.bind_eq_bind, Option.bind_eq_some_iff, Option.some.injEq] at he
    obtain ⟨x, hx, y, hy, rfl⟩ := he
    obtain ⟨a1, a2⟩ := ih1 hn.1 hx
    obtain ⟨b1, b2⟩ := ih2 hn.2 hy
    exact ⟨by simp only [AExpr.eval, a1, b1, Option.bind_eq_bind, Option.bind_some, Option.some.injEq]; omega, a2, b2, trivial⟩
  | div => exact absurd hn (by simp [NoDivD])
  | range h => simp [affineExpr] at he
  | indices => simp [affineExpr] at he
  | indicesDep => simp [affineExpr] at he

/-- The access function chosen reaches the values of the results. -/
theorem dispatch_reaches {n : Nat} {rs : List DimAccess} {p x : Point} (hp : p.length = n) (hne : rs ≠ [])
    (hn : ∀ r ∈ rs, NoDivD r) (hok : ∀ r ∈ rs, DimOk r) (h : List.Forall₂ (Denotes p []) rs x) :
    ∃ s, (dispatch n rs).mapPoint p = some s ∧ Has s x := by
  have hv : ∀ r ∈ rs, ∃ v, Denotes p [] r v := by
    clear hne hn hok
    induction h with
    | nil => simp
    | cons h _ ih =>
      intro r hr
      rcases List.mem_cons.1 hr with rfl | hr
      · exact ⟨_, h⟩
      · exact ih r hr
  have hgen : ∃ s, genericMap rs p = some s ∧ Has s x := by
    have hd : rs.flatMap depSpaces = [] := List.flatMap_eq_nil_iff.2 fun r hr => depSpaces_noDiv (hn r hr)
    have : ∃ s, genericMap rs p = some s := by
      have hg : genericMap rs p = appendAll rs p [] IndexSet.empty := by simp [genericMap, hd, uniqueKeys]
      rw [hg]
      have : ∀ (l : List DimAccess) (acc : IndexSet), (∀ r ∈ l, ∃ s, DimAccess.map r p [] = some s) →
          ∃ s, appendAll l p [] acc = some s := by
        intro l
        induction l with
        | nil => intro acc _; exact ⟨acc, rfl⟩
        | cons r l ih =>
          intro acc hl
          obtain ⟨s, hs⟩ := hl r (by simp)
          obtain ⟨t, ht⟩ := ih (if acc.isEmpty then s else acc.append s) fun r hr => hl r (by simp [hr])
          refine ⟨t, ?_⟩
          unfold appendAll at ht ⊢
          rw [List.foldlM_cons, hs]
          exact ht
      exact this rs _ fun r hr => map_defined (hn r hr) (hok r hr) (hv r hr).choose_spec
    obtain ⟨s, hs⟩ := this
    exact ⟨s, hs, ((C51_map_partial n rs p s hne hok (fun r hr => depSpaces_noDiv (hn r hr)) hv hs).2 x).2 h⟩
  have haff : rs.all DimAccess.isAffine = true → ∃ s, ((affinePoint (buildAffineMap n rs) p).map fun q =>
      IndexSet.ofPoints [q]) = some s ∧ Has s x := by
    intro ha
    have hvals : Vals (rs.filterMap affineExpr) p x := by
      clear hne hok hv hgen
      induction h with
      | nil => exact .nil
      | @cons a v as vs h t ih =>
        simp only [List.all_cons, Bool.and_eq_true] at ha
        obtain ⟨e, he⟩ := affineExpr_isAffine.1 ha.1
        rw [List.filterMap_cons_some he]
        exact .cons (denotes_eval (hn a (by simp)) he h).1 (ih (fun r hr => hn r (by simp [hr])) ha.2)
    have hx : x ≠ [] := by
      rintro rfl
      cases h
      exact hne rfl
    refine ⟨IndexSet.ofPoints [x], ?_, ((ofPoint_single hx).2 x).2 rfl⟩
    rw [affinePoint_vals (m := buildAffineMap n rs) (p := p) (q := x) (by simp [buildAffineMap, hp]) hvals]
    rfl
  unfold dispatch
  split_ifs with h1 h2 h3 h4
  · simp only [Bool.and_eq_true, List.isEmpty_iff] at h1
    exact absurd h1.2 hne
  · refine haff ?_
    rw [List.all_eq_true] at h2 ⊢
    intro r hr
    have := h2 r hr
    cases r <;> simp_all [isConst, DimAccess.isAffine]
  · exact hgen
  · refine haff ?_
    simp only [Bool.and_eq_true, List.all_eq_true] at h4
    rw [List.all_eq_true]
    intro r hr
    have := h4.2 r hr
    cases r with
    | const v => rfl
    | dim d => rfl
    | add a b =>
      simp only [isRotoLike, Bool.or_eq_true, Bool.and_eq_true] at this
      cases a <;> cases b <;> simp_all [isDim, isConst, DimAccess.isAffine]
    | _ => simp [isRotoLike] at this
  · exact hgen

/-- The additional dimensions of an extended map: `i`-th from `n` on, each with a value. -/
structure FakeOk (n : Nat) (p : Point) (f : Fake) (z : Point) : Prop where
  keys : ∀ (i d : Nat) (a : DimAccess), f[i]? = some (d, a) → d = n + i
  length : z.length = f.length
  denotes : ∀ (i d : Nat) (a : DimAccess), f[i]? = some (d, a) → ∃ v, z[i]? = some v ∧ Denotes p [] a v ∧ NoDivD a ∧ DimOk a

theorem FakeOk.lookup {n : Nat} {p z : Point} {f : Fake} (h : FakeOk n p f z) (d : Nat) :
    (d < n ∧ f.lookup d = none) ∨ (∃ i a v, d = n + i ∧ f.lookup d = some a ∧ z[i]? = some v ∧ Denotes p [] a v ∧
      NoDivD a ∧ DimOk a) ∨ n + f.length ≤ d := by
  have key : ∀ (f : Fake) (k : Nat), (∀ (i d : Nat) (a : DimAccess), f[i]? = some (d, a) → d = n + k + i) →
      (d < n + k → f.lookup d = none) ∧ ∀ (i : Nat) (a : DimAccess), d = n + k + i → f[i]? = some (d, a) → f.lookup d = some a := by
    intro f
    induction f with
    | nil => intro k _; simp
    | cons e f ih =>
      intro k hk
      obtain ⟨d', a'⟩ := e
      have h0 := hk 0 d' a' rfl
      obtain ⟨i1, i2⟩ := ih (k + 1) fun i d a hi => by have := hk (i + 1) d a (by simpa using hi); omega
      constructor
      · intro hd
        have : (d == d') = false := by simp; omega
        rw [List.lookup_cons, this]
        exact i1 (by omega)
      · intro i a hd hi
        cases i with
        | zero =>
          simp only [List.getElem?_cons_zero, Option.some.injEq, Prod.mk.injEq] at hi
          obtain ⟨rfl, rfl⟩ := hi
          simp
        | succ i =>
          have : (d == d') = false := by simp; omega
          rw [List.lookup_cons, this]
          exact i2 i a (by omega) (by simpa using hi)
  obtain ⟨k1, k2⟩ := key f 0 (by simpa using h.keys)
  by_cases hd : d < n
  · exact .inl ⟨hd, k1 (by omega)⟩
  · by_cases hd' : n + f.length ≤ d
    · exact .inr (.inr hd')
    · refine .inr (.inl ?_)
      obtain ⟨⟨d', a⟩, hi⟩ : ∃ e, f[d - n]? = some e := ⟨_, List.getElem?_eq_getElem (by omega)⟩
      have := h.keys _ _ _ hi
      obtain rfl : d' = d := by omega
      obtain ⟨v, h1, h2, h3, h4⟩ := h.denotes _ _ _ hi
      exact ⟨d' - n, a, v, by omega, k2 (d' - n) a (by omega) hi, h1, h2, h3, h4⟩

theorem FakeOk.nil (n : Nat) (p : Point) : FakeOk n p [] [] := ⟨by simp, rfl, by simp⟩

theorem FakeOk.snoc {n : Nat} {p z : Point} {f : Fake} (h : FakeOk n p f z) {a : DimAccess} {v : Int}
    (hd : Denotes p [] a v) (hn : NoDivD a) (hok : DimOk a) : FakeOk n p (f ++ [(n + f.length, a)]) (z ++ [v]) := by
  refine ⟨?_, by simp [h.length], ?_⟩
  · intro i d b hi
    by_cases hl : i < f.length
    · rw [List.getElem?_append_left hl] at hi; exact h.keys _ _ _ hi
    · rw [List.getElem?_append_right (by omega)] at hi
      cases hi' : i - f.length with
      | zero => rw [hi'] at hi; simp at hi; omega
      | succ k => rw [hi'] at hi; simp at hi
  · intro i d b hi
    by_cases hl : i < f.length
    · rw [List.getElem?_append_left hl] at hi
      rw [List.getElem?_append_left (by rw [h.length]; exact hl)]
      exact h.denotes _ _ _ hi
    · rw [List.getElem?_append_right (by omega)] at hi
      cases hi' : i - f.length with
      | zero =>
        rw [hi'] at hi
        simp only [List.getElem?_cons_zero, Option.some.injEq, Prod.mk.injEq] at hi
        obtain ⟨-, rfl⟩ := hi
        refine ⟨v, ?_, hd, hn, hok⟩
        rw [List.getElem?_append_right (by rw [h.length]; omega), h.length, hi']; rfl
      | succ k => rw [hi'] at hi; simp at hi

theorem eval_mono {e : AExpr} {q z : Point} {v : Int} (h : e.eval q = some v) : e.eval (q ++ z) = some v := by
  rw [← h]; exact eval_append (AExpr.below_of_eval h)

/-- The extended expression of an access takes the value, for some values of the additional dimensions. -/
theorem extExpr_denotes {n : Nat} {p : Point} (hp : p.length = n) {a : DimAccess} : ∀ {f : Fake} {z : Point} {v : Int},
    FakeOk n p f z → NoDivD a → DimOk a → Denotes p [] a v →
    ∃ z', FakeOk n p (extExpr n a f).2 (z ++ z') ∧ (extExpr n a f).1.eval (p ++ (z ++ z')) = some v ∧
      (extExpr n a f).1.NoDiv := by
  have leaf : ∀ {a : DimAccess} {f : Fake} {z : Point} {v : Int}, FakeOk n p f z → NoDivD a → DimOk a → Denotes p [] a v →
      ∃ z', FakeOk n p (f ++ [(n + f.length, a)]) (z ++ z') ∧
        (AExpr.dim (n + f.length)).eval (p ++ (z ++ z')) = some v ∧ (AExpr.dim (n + f.length)).NoDiv := by
    intro a f z v hf hn hok h
    refine ⟨[v], hf.snoc h hn hok, ?_, trivial⟩
    simp only [AExpr.eval]
    rw [List.getElem?_append_right (by omega), List.getElem?_append_right (by rw [hf.length]; omega), hf.length]
    simp [hp]
  induction a with
  | const v =>
    intro f z w hf _ _ h
    cases h
    exact ⟨[], by simpa [extExpr] using hf, rfl, trivial⟩
  | dim d =>
    intro f z w hf _ _ h
    cases h with
    | dim h =>
      refine ⟨[], by simpa [extExpr] using hf, ?_, trivial⟩
      exact eval_mono (e := .dim d) h
  | add a b iha ihb =>
    intro f z w hf hn hok h
    cases h with
    | add h1 h2 =>
      cases hok with
      | add o1 o2 =>
        obtain ⟨z1, f1, e1, n1⟩ := iha hf hn.1 o1 h1
        obtain ⟨z2, f2, e2, n2⟩ := ihb f1 hn.2 o2 h2
        refine ⟨z1 ++ z2, by simpa [extExpr] using f2, ?_, n1, n2⟩
        have e1' := eval_mono (z := z2) e1
        simp only [List.append_assoc] at e1' e2
        simp [extExpr, AExpr.eval, e1', e2]
  | sub a b iha ihb =>
    intro f z w hf hn hok h
    cases h with
    | sub h1 h2 =>
      cases hok with
      | sub o1 o2 =>
        obtain ⟨z1, f1, e1, n1⟩ := iha hf hn.1 o1 h1
        obtain ⟨z2, f2, e2, n2⟩ := ihb f1 hn.2 o2 h2
        refine ⟨z1 ++ z2, by simpa [extExpr] using f2, ?_, n1, n2, trivial⟩
        have e1' := eval_mono (z := z2) e1
        simp only [List.append_assoc] at e1' e2
        simp only [extExpr, AExpr.eval, e1', e2, Option.bind_eq_bind, Option.bind_some, Option.some.injEq]
        omega
  | mul a b iha ihb =>
    intro f z w hf hn hok h
    cases h with
    | mul h1 h2 =>
      cases hok with
      | mul o1 o2 =>
        obtain ⟨z1, f1, e1, n1⟩ := iha hf hn.1 o1 h1
        obtain ⟨z2, f2, e2, n2⟩ := ihb f1 hn.2 o2 h2
        refine ⟨z1 ++ z2, by simpa [extExpr] using f2, ?_, n1, n2⟩
        have e1' := eval_mono (z := z2) e1
        simp only [List.append_assoc] at e1' e2
        simp [extExpr, AExpr.eval, e1', e2]
  | div a b => intro f z w _ hn; exact absurd hn (by simp [NoDivD])
  | range r => intro f z w hf hn hok h; exact leaf hf hn hok h
  | indices k s d deps => intro f z w hf hn hok h; exact leaf hf hn hok h

theorem extExprs_denotes {n : Nat} {p : Point} (hp : p.length = n) {rs : List DimAccess} : ∀ {f : Fake} {z x : Point},
    FakeOk n p f z → (∀ r ∈ rs, NoDivD r) → (∀ r ∈ rs, DimOk r) → List.Forall₂ (Denotes p []) rs x →
    ∃ z', FakeOk n p (extExprs n rs f).2 (z ++ z') ∧ Vals (extExprs n rs f).1 (p ++ (z ++ z')) x ∧
      ∀ e ∈ (extExprs n rs f).1, e.NoDiv := by
  induction rs with
  | nil =>
    intro f z x hf _ _ h
    cases h
    exact ⟨[], by simpa [extExprs] using hf, .nil, by simp [extExprs]⟩
  | cons r rs ih =>
    intro f z x hf hn hok h
    cases h with
    | @cons _ v _ vs h t =>
      obtain ⟨z1, f1, e1, n1⟩ := extExpr_denotes hp hf (hn r (by simp)) (hok r (by simp)) h
      obtain ⟨z2, f2, e2, n2⟩ := ih f1 (fun r hr => hn r (by simp [hr])) (fun r hr => hok r (by simp [hr])) t
      have e1' := eval_mono (z := z2) e1
      simp only [List.append_assoc] at e1' e2
      refine ⟨z1 ++ z2, by simpa [extExprs] using f2, .cons e1' e2, ?_⟩
      intro e he
      simp only [extExprs, List.mem_cons] at he
      rcases he with rfl | he
      · exact n1
      · exact n2 e he

/-- The access recovered from an extended expression takes its value. -/
theorem fromExt_denotes {n : Nat} {p z : Point} (hp : p.length = n) {f : Fake} (hf : FakeOk n p f z) {e : AExpr}
    (hn : e.NoDiv) : ∀ {v : Int}, e.eval (p ++ z) = some v →
    Denotes p [] (fromExt f e) v ∧ NoDivD (fromExt f e) ∧ DimOk (fromExt f e) := by
  induction e with
  | const c => intro v h; simp only [AExpr.eval, Option.some.injEq] at h; subst h; exact ⟨.const _, trivial, .const _⟩
  | dim d =>
    intro v h
    simp only [AExpr.eval] at h
    rcases hf.lookup d with ⟨h1, h2⟩ | ⟨i, a, w, rfl, h2, h3, h4, h5, h6⟩ | h1
    · rw [List.getElem?_append_left (by omega)] at h
      simp only [fromExt, h2]
      exact ⟨.dim h, trivial, .dim d⟩
    · rw [List.getElem?_append_right (by omega), hp, Nat.add_sub_cancel_left, h3] at h
      obtain rfl := Option.some.inj h
      simp only [fromExt, h2]
      exact ⟨h4, h5, h6⟩
    · rw [List.getElem?_eq_none (by simp [hf.length]; omega)] at h
      cases h
  | add a b iha ihb =>
    intro v h
    simp only [AExpr.eval, Option.bind_eq_bind, Option.bind_eq_some_iff, Option.some.injEq] at h
    obtain ⟨x, hx, y, hy, rfl⟩ := h
    obtain ⟨a1, a2, a3⟩ := iha hn.1 hx
    obtain ⟨b1, b2, b3⟩ := ihb hn.2 hy
    exact ⟨.add a1 b1, ⟨a2, b2⟩, .add a3 b3⟩
  | mul a b iha ihb =>
    intro v h
    simp only [AExpr.eval, Option.bind_eq_bind, Option.bind_eq_some_iff, Option.some.injEq] at h
    obtain ⟨x, hx, y, hy, rfl⟩ := h
    obtain ⟨a1, a2, a3⟩ := iha hn.1 hx
    obtain ⟨b1, b2, b3⟩ := ihb hn.2 hy
    exact ⟨.mul a1 b1, ⟨a2, b2⟩, .mul a3 b3⟩
  | floorDiv a b => exact absurd hn (by simp [AExpr.NoDiv])

/-- The results of the access function built have the values of the accesses it is built from. -/
theorem build_dispatch (S : Simplifier) {n : Nat} {rs : List DimAccess} {p x : Point} (hp : p.length = n)
    (hn : ∀ r ∈ rs, NoDivD r) (hok : ∀ r ∈ rs, DimOk r) (h : List.Forall₂ (Denotes p []) rs x) :
    ∃ R, build S n rs = dispatch n R ∧ (∀ r ∈ R, NoDivD r ∧ DimOk r) ∧ List.Forall₂ (Denotes p []) R x := by
  obtain ⟨z, hf, hev, hd⟩ := extExprs_denotes hp (FakeOk.nil n p) hn hok h
  simp only [List.nil_append] at hf hev
  generalize hE : extExprs n rs [] = r at hf hev hd
  obtain ⟨es, f⟩ := r
  simp only at hf hev hd
  have hlen : n + f.length ≤ (p ++ z).length := by simp [hp, hf.length]
  have hb : build S n rs = dispatch n (((es.map (S.fn (n + f.length))).map (S.fn (n + f.length))).map (fromExt f)) := by
    unfold AccessFn.build
    rw [hE]
    simp [fromExtendedMap, Function.comp_def]
  have hv : Vals ((es.map (S.fn (n + f.length))).map (S.fn (n + f.length))) (p ++ z) x := vals_simp S hlen (vals_simp S hlen hev)
  have hN : ∀ e ∈ (es.map (S.fn (n + f.length))).map (S.fn (n + f.length)), e.NoDiv := by
    intro e he
    simp only [List.map_map, List.mem_map, Function.comp_apply] at he
    obtain ⟨e, he, rfl⟩ := he
    exact S.noDiv _ _ (S.noDiv _ _ (hd e he))
  refine ⟨_, hb, ?_⟩
  clear hb
  generalize (es.map (S.fn (n + f.length))).map (S.fn (n + f.length)) = L at hv hN
  have hall : ∀ r ∈ L.map (fromExt f), NoDivD r ∧ DimOk r := by
    intro r hr
    obtain ⟨e, he, rfl⟩ := List.mem_map.1 hr
    obtain ⟨v, hv'⟩ : ∃ v, e.eval (p ++ z) = some v := by
      clear hN hr hev h
      induction hv with
      | nil => simp at he
      | cons h _ ih =>
        rcases List.mem_cons.1 he with rfl | he
        · exact ⟨_, h⟩
        · exact ih he
    exact (fromExt_denotes hp hf (hN e he) hv').2
  refine ⟨hall, ?_⟩
  clear hall h hev
  induction hv with
  | nil => exact .nil
  | cons h _ ih => exact .cons (fromExt_denotes hp hf (hN _ (by simp)) h).1 (ih fun e he => hN e (by simp [he]))

theorem build_reaches (S : Simplifier) {n : Nat} {rs : List DimAccess} {p x : Point} (hp : p.length = n) (hne : rs ≠ [])
    (hn : ∀ r ∈ rs, NoDivD r) (hok : ∀ r ∈ rs, DimOk r) (h : List.Forall₂ (Denotes p []) rs x) :
    ∃ s, (build S n rs).mapPoint p = some s ∧ Has s x := by
  obtain ⟨R, h1, h2, h3⟩ := build_dispatch S hp hn hok h
  rw [h1]
  refine dispatch_reaches hp ?_ (fun r hr => (h2 r hr).1) (fun r hr => (h2 r hr).2) h3
  rintro rfl
  cases h3
  cases h
  exact hne rfl

/-! ### The elements read -/

open Marco.Spec.EqAcc

/-- The environment agrees with the inductions known to the search. -/
structure EnvOk (inds : List Nat) (p : Point) (ad : Added) (env : IndEnv) : Prop where
  explicit : ∀ id ∈ inds, env id = p[inds.idxOf id]?
  added : ∀ id, id ∉ inds → ∀ w, env id = some w → ∀ s d, ad.lookup id = some (s, d) →
    ∃ k j q, d = some j ∧ SetOk k s ∧ j < k ∧ Has s q ∧ q[j]? = some w

theorem except_bind {ε α β : Type} {x : Except ε α} {f : α → Except ε β} {b : β} (h : (x >>= f) = .ok b) :
    ∃ a, x = .ok a ∧ f a = .ok b := by
  cases x with
  | error e => cases h
  | ok a => exact ⟨a, rfl, h⟩

theorem dimAccess_denotes {inds : List Nat} {p : Point} {ad : Added} {env : IndEnv} (henv : EnvOk inds p ad env) :
    ∀ (e : Exp) {a : DimAccess} {u : Val}, Plain e → dimAccess inds ad e = .ok a → value env e = some u →
    ∃ w, u = .int w ∧ Denotes p [] a w ∧ NoDivD a ∧ DimOk a
  | .cst v, a, u, _, h, hu => by
    simp only [dimAccess, Except.ok.injEq] at h
    simp only [value, Option.some.injEq] at hu
    subst h hu
    exact ⟨v, rfl, .const v, trivial, .const v⟩
  | .arg id, a, u, _, h, hu => by
    simp only [value, Option.map_eq_some_iff] at hu
    obtain ⟨w, hw, rfl⟩ := hu
    refine ⟨w, rfl, ?_⟩
    unfold dimAccess at h
    split_ifs at h with hi
    · simp only [Except.ok.injEq] at h
      subst h
      exact ⟨.dim (by rw [← henv.explicit id hi, hw]), trivial, .dim _⟩
    · split at h
      · rename_i s d hl
        split_ifs at h
        simp only [Except.ok.injEq] at h
        subst h
        obtain ⟨k, j, q, h1, h2, h3, h4, h5⟩ := henv.added id hi w hw _ _ hl
        obtain rfl := Option.some.inj h1
        exact ⟨.indices h4 h5, rfl, .indices h2 h3⟩
      · cases h
      · cases h
  | .neg e, a, u, hp, h, hu => by
    obtain ⟨b, hb, h⟩ := except_bind h
    simp only [Except.ok.injEq] at h
    subst h
    simp only [value, Option.map_eq_some_iff] at hu
    obtain ⟨u', hu', rfl⟩ := hu
    obtain ⟨w, rfl, h1, h2, h3⟩ := dimAccess_denotes henv e hp hb hu'
    refine ⟨-w, rfl, ?_, ⟨trivial, h2⟩, .mul (.const _) h3⟩
    have := Denotes.mul (.const (-1)) h1
    rwa [Int.neg_one_mul] at this
  | .bin o l r, a, u, hp, h, hu => by
    obtain ⟨b, hb, h⟩ := except_bind h
    obtain ⟨c, hc, h⟩ := except_bind h
    simp only [value, Option.bind_eq_some_iff] at hu
    obtain ⟨u1, hu1, u2, hu2, hu⟩ := hu
    obtain ⟨hdiv, hp1, hp2⟩ := hp
    obtain ⟨w1, rfl, h1, h2, h3⟩ := dimAccess_denotes henv l hp1 hb hu1
    obtain ⟨w2, rfl, h4, h5, h6⟩ := dimAccess_denotes henv r hp2 hc hu2
    cases o with
    | add =>
      simp only [Except.ok.injEq] at h
      simp only [binVal, Option.some.injEq] at hu
      subst h hu
      exact ⟨_, rfl, .add h1 h4, ⟨h2, h5⟩, .add h3 h6⟩
    | sub =>
      simp only [Except.ok.injEq] at h
      simp only [binVal, Option.some.injEq] at hu
      subst h hu
      exact ⟨_, rfl, .sub h1 h4, ⟨h2, h5⟩, .sub h3 h6⟩
    | mul =>
      simp only [Except.ok.injEq] at h
      simp only [binVal, Option.some.injEq] at hu
      subst h hu
      exact ⟨_, rfl, .mul h1 h4, ⟨h2, h5⟩, .mul h3 h6⟩
    | div => exact absurd rfl hdiv
  | .rng .., _, _, hp, _, _ => absurd hp (by simp [Plain])
  | .rrng .., _, _, hp, _, _ => absurd hp (by simp [Plain])
  | .op _, _, _, hp, _, _ => absurd hp (by simp [Plain])
  | .get .., _, _, hp, _, _ => absurd hp (by simp [Plain])
  | .gget, _, _, hp, _, _ => absurd hp (by simp [Plain])
  | .sub .., _, _, hp, _, _ => absurd hp (by simp [Plain])
  | .cast _, _, _, hp, _, _ => absurd hp (by simp [Plain])
  | .red .., _, _, hp, _, _ => absurd hp (by simp [Plain])

/-- Nothing is read by a subscript with a dimension access. -/
theorem dimAccess_noReads {inds : List Nat} {ad : Added} : ∀ (e : Exp) {a : DimAccess}, dimAccess inds ad e = .ok a →
    ∀ {env : IndEnv} {sel : Point} {v : Nat} {x : Point}, ¬ Reads env e sel v x
  | .cst _, _, _, _, _, _, _, h => nomatch h
  | .arg _, _, _, _, _, _, _, h => nomatch h
  | .rng .., _, _, _, _, _, _, h => nomatch h
  | .rrng .., _, _, _, _, _, _, h => nomatch h
  | .gget, _, _, _, _, _, _, h => nomatch h
  | .neg e, _, h, _, _, _, _, hr => by
    obtain ⟨b, hb, -⟩ := except_bind h
    cases hr with
    | neg hr => exact dimAccess_noReads e hb hr
  | .bin o l r, _, h, _, _, _, _, hr => by
    obtain ⟨b, hb, h⟩ := except_bind h
    obtain ⟨c, hc, -⟩ := except_bind h
    cases hr with
    | lhs hr => exact dimAccess_noReads l hb hr
    | rhs hr => exact dimAccess_noReads r hc hr
  | .op _, _, h, _, _, _, _, _ => by simp [dimAccess] at h
  | .get .., _, h, _, _, _, _, _ => by simp [dimAccess] at h
  | .sub .., _, h, _, _, _, _, _ => by simp [dimAccess] at h
  | .cast _, _, h, _, _, _, _, _ => by simp [dimAccess] at h
  | .red .., _, h, _, _, _, _, _ => by simp [dimAccess] at h

theorem mapM_ok {ε α β : Type} {f : α → Except ε β} : ∀ {l : List α} {r : List β}, l.mapM f = .ok r →
    List.Forall₂ (fun a b => f a = .ok b) l r
  | [], r, h => by
    simp only [List.mapM_nil] at h
    cases h
    exact .nil
  | a :: l, r, h => by
    rw [List.mapM_cons] at h
    obtain ⟨b, hb, h⟩ := except_bind h
    obtain ⟨bs, hbs, h⟩ := except_bind h
    cases h
    exact .cons hb (mapM_ok hbs)

theorem mapM_mem {ε α β : Type} {f : α → Except ε β} {l : List α} {r : List β} (h : l.mapM f = .ok r) {a : α} (ha : a ∈ l) :
    ∃ b, f a = .ok b := by
  have h' := mapM_ok h
  clear h
  induction h' with
  | nil => simp at ha
  | cons h1 _ ih =>
    rcases List.mem_cons.1 ha with rfl | ha
    · exact ⟨_, h1⟩
    · exact ih ha

/-- The accesses of plain subscripts denote the coordinates that the subscripts give. -/
theorem dimAccesses_denotes {inds : List Nat} {p : Point} {ad : Added} {env : IndEnv} (henv : EnvOk inds p ad env)
    {idx : List Exp} (hp : ∀ e ∈ idx, Plain e) {es : List DimAccess} (h : dimAccesses inds ad idx = .ok es)
    {sel pos : Point} (hl : Locates env idx sel pos) :
    ∃ ws, pos = ws ++ sel ∧ List.Forall₂ (Denotes p []) es.reverse ws ∧ ∀ d ∈ es, NoDivD d ∧ DimOk d := by
  have h' : List.Forall₂ (fun a b => dimAccess inds ad a = .ok b) idx es.reverse := by
    have := mapM_ok h
    rw [← List.forall₂_reverse_iff] at this
    simpa using this
  have : ∃ ws, pos = ws ++ sel ∧ List.Forall₂ (Denotes p []) es.reverse ws ∧ ∀ d ∈ es.reverse, NoDivD d ∧ DimOk d := by
    clear h
    generalize es.reverse = L at h'
    induction hl generalizing L with
    | nil sel => cases h'; exact ⟨[], rfl, .nil, by simp⟩
    | int hv _ ih =>
      cases h' with
      | cons h1 h2 =>
        obtain ⟨ws, rfl, i2, i3⟩ := ih (fun e he => hp e (by simp [he])) _ h2
        obtain ⟨w, hw, j1, j2, j3⟩ := dimAccess_denotes henv _ (hp _ (by simp)) h1 hv
        cases hw
        exact ⟨_ :: ws, rfl, .cons j1 i2, by
          intro d hd
          rcases List.mem_cons.1 hd with rfl | hd
          · exact ⟨j2, j3⟩
          · exact i3 d hd⟩
    | rng hv _ _ _ =>
      cases h' with
      | cons h1 h2 =>
        obtain ⟨w, hw, -⟩ := dimAccess_denotes henv _ (hp _ (by simp)) h1 hv
        cases hw
  obtain ⟨ws, h1, h2, h3⟩ := this
  exact ⟨ws, h1, h2, fun d hd => h3 d (by simpa using hd)⟩

/-- The environment within a reduction over one range of integers. -/
theorem EnvOk.red {inds : List Nat} {p : Point} {ad ad' : Added} {env : IndEnv} (henv : EnvOk inds p ad env) {i : Nat}
    {lo hi : Int} (hi' : i ∉ inds) (hm : mapAdditional [i] [.rng lo hi 1] ad = .ok ad') {ws : List Int}
    (hw : List.Forall₂ (Iterates env) [.rng lo hi 1] ws) : EnvOk inds p ad' (extend env [i] ws) := by
  cases hw with
  | @cons _ w _ _ h1 h2 =>
    cases h2
    obtain ⟨f, s, n, hv, k, hk, rfl⟩ := h1
    simp only [value] at hv
    split_ifs at hv with hle
    simp only [Option.some.injEq, Val.rng.injEq] at hv
    obtain ⟨rfl, rfl, rfl⟩ := hv
    simp only [Int.ediv_one] at hk
    obtain ⟨hs1, -, hs3, -⟩ := ofRanges_spec (k := 1) (rs := [[⟨lo, hi + 1⟩]])
      (by simp [Ranked, Box.Valid, Range.Valid]; omega)
    have hne : (ofRanges [[(⟨lo, hi + 1⟩ : Range)]]).ranges ≠ [] := by
      intro hc
      have : Has (ofRanges [[⟨lo, hi + 1⟩]]) [lo] := (hs3 [lo]).2 (by simp [InL, InB, InR]; omega)
      obtain ⟨b, hb, -⟩ := this
      rw [hc] at hb
      simp at hb
    have hrank : rank (ofRanges [[(⟨lo, hi + 1⟩ : Range)]]) = 1 := by
      unfold rank
      cases hr : (ofRanges [[(⟨lo, hi + 1⟩ : Range)]]).ranges with
      | nil => exact absurd hr hne
      | cons b bs => exact (ranges_ranked hs1 b (by rw [hr]; simp)).2
    have hcond : lo < hi + 1 := by omega
    have hem : IndexSet.empty.isEmpty = true := by simp [IndexSet.isEmpty, IndexSet.empty]
    simp only [mapAdditional, addIterables, addIterable, hcond, true_and, hem, if_true, lastDim, hrank] at hm
    simp only [bind, Except.bind, Except.ok.injEq] at hm
    subst hm
    constructor
    · intro id hid
      have : id ≠ i := by rintro rfl; exact hi' hid
      simp only [extend, if_neg this]
      exact henv.explicit id hid
    · intro id hid u hu s d hl
      by_cases he : id = i
      · subst he
        simp only [extend, if_pos, Option.some.injEq] at hu
        subst hu
        simp at hl
        obtain ⟨rfl, rfl⟩ := hl
        refine ⟨1, 0, [lo + k * 1], rfl, hs1, by omega, (hs3 _).2 ?_, rfl⟩
        simp [InL, InB, InR]; omega
      · simp only [extend, if_neg he] at hu
        have hb : (id == i) = false := by simpa using he
        simp only [List.nil_append, List.map_cons, List.map_nil, List.cons_append, List.lookup_cons, hb] at hl
        exact henv.added id hid u hu s d hl

theorem shape_denotes {p : Point} : ∀ {shape : List Nat} {x : Point}, InShape shape x →
    List.Forall₂ (Denotes p []) (shape.map fun d : Nat => .range ⟨0, (d : Int)⟩) x
  | [], _, h => by cases h; exact .nil
  | d :: shape, _, h => by
    cases h with
    | cons h1 h2 => exact .cons (.range h1) (shape_denotes h2)

/-- The access function is built from accesses that have the value `x`. -/
def Denoted (S : Simplifier) (inds : List Nat) (p : Point) (a : Access) (v : Nat) (x : Point) : Prop :=
  a.var = v ∧ ∃ rs, a.fn = AccessFn.build S inds.length rs ∧ (∀ r ∈ rs, NoDivD r ∧ DimOk r) ∧
    List.Forall₂ (Denotes p []) rs x

theorem Denoted.reaches {S : Simplifier} {inds : List Nat} {p : Point} (hp : p.length = inds.length) {a : Access} {v : Nat}
    {x : Point} (h : Denoted S inds p a v x) : Reaches a p v x := by
  obtain ⟨hv, rs, hf, hg, hd⟩ := h
  refine ⟨hv, fun hne => ?_⟩
  rw [hf]
  refine build_reaches S hp ?_ (fun r hr => (hg r hr).1) (fun r hr => (hg r hr).2) hd
  rintro rfl
  cases hd
  exact hne rfl

mutual
/-- Everything read is reached by an access found. -/
theorem accesses_denoted {S : Simplifier} {inds : List Nat} {p : Point} (hp : p.length = inds.length) :
    ∀ (e : Exp) {ad : Added} {env : IndEnv} {ds : List DimAccess} {path : List Nat} {as : List Access} {pre rest : Point}
      {v : Nat} {x : Point}, Simple inds e → EnvOk inds p ad env → (∀ d ∈ ds, NoDivD d ∧ DimOk d) →
    accesses S inds e ad ds path = .ok as → Reads env e (pre ++ rest) v x → List.Forall₂ (Denotes p []) ds.reverse pre →
    ∃ a ∈ as, Denoted S inds p a v x
  | .arg _, _, _, _, _, _, _, _, _, _, _, _, _, _, h, _ => nomatch h
  | .cst _, _, _, _, _, _, _, _, _, _, _, _, _, _, h, _ => nomatch h
  | .rng .., _, _, _, _, _, _, _, _, _, _, _, _, _, h, _ => nomatch h
  | .rrng .., _, _, _, _, _, _, _, _, _, _, _, _, _, h, _ => nomatch h
  | .gget, _, _, _, _, _, _, _, _, _, _, _, _, _, h, _ => nomatch h
  | .neg e, ad, env, ds, path, as, pre, rest, v, x, hs, henv, _, h, hr, _ => by
    cases hr with
    | neg hr => exact accesses_denoted hp e (pre := []) hs henv (by simp) h hr .nil
  | .bin o l r, ad, env, ds, path, as, pre, rest, v, x, hs, henv, _, h, hr, _ => by
    simp only [accesses] at h
    obtain ⟨la, hla, h⟩ := except_bind h
    obtain ⟨ra, hra, h⟩ := except_bind h
    cases h
    cases hr with
    | lhs hr =>
      obtain ⟨a, ha, h⟩ := accesses_denoted hp l (pre := []) hs.1 henv (by simp) hla hr .nil
      exact ⟨a, by simp [ha], h⟩
    | rhs hr =>
      obtain ⟨a, ha, h⟩ := accesses_denoted hp r (pre := []) hs.2 henv (by simp) hra hr .nil
      exact ⟨a, by simp [ha], h⟩
  | .op args, ad, env, ds, path, as, pre, rest, v, x, hs, henv, _, h, hr, _ => by
    cases hr with
    | op hm hr => exact accessesL_denoted hp args hs henv h hm hr
  | .get w shape, ad, env, ds, path, as, pre, rest, v, x, hs, henv, hds, h, hr, hpre => by
    cases hr with
    | get hsh =>
      simp only [accesses, getAccess] at h
      split_ifs at h with hpos
      simp only [Except.ok.injEq] at h
      subst h
      have hlen : pre.length = ds.length := by simpa using hpre.length_eq.symm
      have hrest : InShape (shape.drop ds.length) rest := by
        have := List.forall₂_drop ds.length hsh
        rwa [List.drop_left' hlen] at this
      refine ⟨_, List.mem_singleton.2 rfl, rfl, _, rfl, ?_, List.rel_append hpre (shape_denotes hrest)⟩
      intro r hr
      rcases List.mem_append.1 hr with hr | hr
      · exact hds r (by simpa using hr)
      · obtain ⟨d, hd, rfl⟩ := List.mem_map.1 hr
        have := List.all_eq_true.1 hpos d hd
        exact ⟨trivial, .range (by simp at this; simp [Range.Valid]; omega)⟩
  | .sub src idx, ad, env, ds, path, as, pre, rest, v, x, hs, henv, hds, h, hr, hpre => by
    rw [accesses] at h
    obtain ⟨es, hes, h⟩ := except_bind h
    have h' : accesses S inds src ad (ds ++ es) path = .ok as := by
      split at h
      · cases h
      · exact h
    cases hr with
    | sub hl hr =>
      obtain ⟨ws, rfl, hw, hok⟩ := dimAccesses_denotes henv hs.2 hes hl
      refine accesses_denoted hp src (pre := ws ++ pre) (rest := rest) hs.1 henv ?_ h' (by simpa using hr) ?_
      · intro d hd
        rcases List.mem_append.1 hd with hd | hd
        · exact hds d hd
        · exact hok d hd
      · rw [List.reverse_append]
        exact List.rel_append hw hpre
    | @subscript _ _ _ e _ sel' _ _ hm hr =>
      exfalso
      obtain ⟨a, ha⟩ := mapM_mem hes (List.mem_reverse.2 hm)
      exact dimAccess_noReads _ ha hr
  | .cast src, ad, env, ds, path, as, pre, rest, v, x, hs, henv, hds, h, hr, hpre => by
    cases hr with
    | cast hr => exact accesses_denoted hp src hs henv hds h hr hpre
  | .red is its body, ad, env, ds, path, as, pre, rest, v, x, hs, henv, _, h, hr, _ => by
    rw [accesses] at h
    obtain ⟨ad', had, hb'⟩ := except_bind h
    obtain ⟨⟨i, lo, hi, rfl, rfl, hni⟩, hb⟩ := hs
    cases hr with
    | iterable hm hr =>
      rw [List.mem_singleton.1 hm] at hr
      exact nomatch hr
    | red hws hm hr => exact accessesL_denoted hp body hb (henv.red hni had hws) hb' hm hr
termination_by e => sizeOf e
/-- The same for the operands. -/
theorem accessesL_denoted {S : Simplifier} {inds : List Nat} {p : Point} (hp : p.length = inds.length) :
    ∀ (es : List Exp) {ad : Added} {env : IndEnv} {path : List Nat} {i : Nat} {as : List Access} {e : Exp} {sel : Point}
      {v : Nat} {x : Point}, SimpleL inds es → EnvOk inds p ad env → accessesL S inds es ad path i = .ok as → e ∈ es →
    Reads env e sel v x → ∃ a ∈ as, Denoted S inds p a v x
  | [], _, _, _, _, _, _, _, _, _, _, _, _, hm, _ => by simp at hm
  | e :: es, ad, env, path, i, as, e', sel, v, x, hs, henv, h, hm, hr => by
    rw [accessesL] at h
    obtain ⟨la, hla, h⟩ := except_bind h
    obtain ⟨ra, hra, h⟩ := except_bind h
    cases h
    rcases List.mem_cons.1 hm with he | hm
    · rw [he] at hr
      obtain ⟨a, ha, h⟩ := accesses_denoted hp e (pre := []) hs.1 henv (by simp) hla hr .nil
      exact ⟨a, by simp [ha], h⟩
    · obtain ⟨a, ha, h⟩ := accessesL_denoted hp es hs.2 henv hra hm hr
      exact ⟨a, by simp [ha], h⟩
termination_by es => sizeOf es
end

/-- Everything read is reached. -/
theorem accesses_reached {S : Simplifier} {inds : List Nat} {p : Point} (hp : p.length = inds.length) (e : Exp)
    {ad : Added} {env : IndEnv} {ds : List DimAccess} {path : List Nat} {as : List Access} {pre rest : Point}
    {v : Nat} {x : Point} (hs : Simple inds e) (henv : EnvOk inds p ad env) (hds : ∀ d ∈ ds, NoDivD d ∧ DimOk d)
    (h : accesses S inds e ad ds path = .ok as) (hr : Reads env e (pre ++ rest) v x)
    (hpre : List.Forall₂ (Denotes p []) ds.reverse pre) : ∃ a ∈ as, Reaches a p v x := by
  obtain ⟨a, ha, h⟩ := accesses_denoted hp e hs henv hds h hr hpre
  exact ⟨a, ha, h.reaches hp⟩

end Marco.EqAcc
