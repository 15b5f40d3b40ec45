import Verif.Lemmas.Scheduling

/-!
# C35: scheduled loop directions respect self dependencies

Proved for the affine read accesses without divisions. With divisions it is false, as `combine` is
not the composition of the accesses then (C20).

An iteration reading the element it writes itself (`d' = d` below) is not a matter of order: the
documentation of the scheduler assumes that such algebraic loops have been solved before.
-/

namespace Marco.Props
open Marco Spec IndexSet DimAccess AccessFn Scheduling

/-- The equation writes `w` and reads `reads` of variable `v` over the box `b`; whichever way
`any` is resolved (`fwd`), each element read is computed earlier in the loop nest if it is
computed by another iteration of the equation at all. -/
def ComputedFirst (v : Nat) (w : AccessFn) (reads : List (Nat × AccessFn)) (b : Box)
    (dirs : List DirP) : Prop :=
  ∀ fwd : List Bool, List.Forall₂ Allows dirs fwd →
    ∀ pre d post, nest (b.zip fwd) = pre ++ d :: post →
      ∀ f, (v, f) ∈ reads → ∀ d' q, InB d' b → d' ≠ d → MapsTo f d q → MapsTo w d' q → d' ∈ pre

/-- The claim, in full. -/
def C35_full : Prop := ∀ (S : Simplifier) (v : Nat) (m : AffineMap) (reads : List (Nat × AccessFn))
    (b : Box) (s : IndexSet) (dirs ds : List DirP), RotoOk m → Ranked m.dims b → SetOk m.dims s →
    (∀ p, Has s p ↔ InB p b) → (∀ f, (v, f) ∈ reads → AffineOk f ∧ f.dims = m.dims ∧
      f.numResults = m.results.length) →
    directions S m.dims s [(v, .roto m)] reads = some dirs → scheduleAsRange dirs = some ds →
    ComputedFirst v (.roto m) reads b ds

/-! ### A simplifier -/

/-- Sum of two simplified expressions: folds constants. -/
def sAdd : AExpr → AExpr → AExpr
  | .const a, .const b => .const (a + b)
  | .add x (.const a), .const b => .add x (.const (a + b))
  | x, y => .add x y

/-- Product of two simplified expressions: folds constants. -/
def sMul : AExpr → AExpr → AExpr
  | .const a, .const b => .const (a * b)
  | x, y => .mul x y

/-- Quotient: `(x * k + c) floordiv k` is `x + c floordiv k` (MLIR divides a sum term by term if
one of the terms is a multiple of the divisor). -/
def sDiv : AExpr → AExpr → AExpr
  | .add (.mul x (.const k)) (.const c), .const k' =>
    if k = k' ∧ 0 < k then .add x (.const (c.fdiv k))
    else .floorDiv (.add (.mul x (.const k)) (.const c)) (.const k')
  | x, y => .floorDiv x y

/-- Sample simplifier. -/
def simp : AExpr → AExpr
  | .const v => .const v
  | .dim d => .dim d
  | .add a b => sAdd (simp a) (simp b)
  | .mul a b => sMul (simp a) (simp b)
  | .floorDiv a b => sDiv (simp a) (simp b)

theorem sAdd_eval {a b : AExpr} {p : Point} {v : Int} (h : (AExpr.add a b).eval p = some v) :
    (sAdd a b).eval p = some v := by
  unfold sAdd
  split
  · exact h
  · simp only [AExpr.eval, Option.bind_eq_bind, Option.bind_eq_some_iff, Option.some.injEq] at h ⊢
    obtain ⟨x, ⟨y, hy, z, rfl, rfl⟩, w, rfl, rfl⟩ := h
    exact ⟨y, hy, _, rfl, by omega⟩
  · exact h

theorem sMul_eval {a b : AExpr} {p : Point} {v : Int} (h : (AExpr.mul a b).eval p = some v) :
    (sMul a b).eval p = some v := by
  unfold sMul
  split
  · exact h
  · exact h

theorem sDiv_eval {a b : AExpr} {p : Point} {v : Int} (h : (AExpr.floorDiv a b).eval p = some v) :
    (sDiv a b).eval p = some v := by
  unfold sDiv
  split
  · split_ifs with hk
    · obtain ⟨rfl, hk⟩ := hk
      simp only [AExpr.eval, Option.bind_eq_bind, Option.bind_eq_some_iff, Option.some.injEq] at h ⊢
      obtain ⟨x, ⟨y, ⟨z, hz, t, rfl, rfl⟩, w, rfl, rfl⟩, u, rfl, h⟩ := h
      rw [if_pos hk] at h
      refine ⟨z, hz, _, rfl, ?_⟩
      rw [← Option.some.inj h, Int.fdiv_eq_ediv_of_nonneg _ (by omega),
        Int.fdiv_eq_ediv_of_nonneg _ (by omega), Int.add_comm (z * _), Int.add_mul_ediv_right _ _ (by omega)]
      omega
    · exact h
  · exact h

theorem simp_eval (e : AExpr) (p : Point) : ∀ v, e.eval p = some v → (simp e).eval p = some v := by
  induction e with
  | const c => exact fun v h => h
  | dim d => exact fun v h => h
  | add a b iha ihb =>
    intro v h
    simp only [AExpr.eval, Option.bind_eq_bind, Option.bind_eq_some_iff, Option.some.injEq] at h
    obtain ⟨x, hx, y, hy, rfl⟩ := h
    exact sAdd_eval (by simp [AExpr.eval, iha x hx, ihb y hy])
  | mul a b iha ihb =>
    intro v h
    simp only [AExpr.eval, Option.bind_eq_bind, Option.bind_eq_some_iff, Option.some.injEq] at h
    obtain ⟨x, hx, y, hy, rfl⟩ := h
    exact sMul_eval (by simp [AExpr.eval, iha x hx, ihb y hy])
  | floorDiv a b iha ihb =>
    intro v h
    simp only [AExpr.eval, Option.bind_eq_bind, Option.bind_eq_some_iff] at h
    obtain ⟨x, hx, y, hy, h⟩ := h
    exact sDiv_eval (by simp only [AExpr.eval, iha x hx, ihb y hy]; exact h)

theorem simp_noDiv (e : AExpr) (h : e.NoDiv) : (simp e).NoDiv := by
  induction e with
  | const c => trivial
  | dim d => trivial
  | add a b iha ihb =>
    have h1 := iha h.1
    have h2 := ihb h.2
    unfold simp sAdd
    split
    · trivial
    · rename_i he _
      rw [he] at h1
      exact ⟨h1.1, trivial⟩
    · exact ⟨h1, h2⟩
  | mul a b iha ihb =>
    have h1 := iha h.1
    have h2 := ihb h.2
    unfold simp sMul
    split
    · trivial
    · exact ⟨h1, h2⟩
  | floorDiv a b => exact absurd h id

/-- Sample simplifier, with its contract. -/
def foldSimp : Simplifier where
  fn _ e := simp e
  eval_eq _ e p v _ h := simp_eval e p v h
  noDiv _ e h := simp_noDiv e h

/-- `x[i] = ... x[(2 i + 1) / 2]` for `i` in `[-1, 1)`: any direction is allowed, because the read
is taken for `x[i]`; but the iteration `-1` reads `x[0]`, computed later by a loop over increasing
indices. -/
theorem C35_full_false : ¬ C35_full := by
  intro h
  have hb : Ranked 1 [⟨-1, 1⟩] := ⟨⟨by simp, by simp [Range.Valid]⟩, rfl⟩
  obtain ⟨h1, -, h3, -⟩ := ofRanges_spec (k := 1) (rs := [[⟨-1, 1⟩]]) (by simpa using hb)
  have hc := h foldSimp 0 ⟨1, [.dim 0]⟩
    [(0, .generic 1 [.div (.add (.mul (.dim 0) (.const 2)) (.const 1)) (.const 2)])]
    [⟨-1, 1⟩] (IndexSet.ofRanges [[⟨-1, 1⟩]]) [.any] [.any]
    ⟨by decide, by decide, by intro e he; simp at he; subst he; exact ⟨_, _, .dim (by decide)⟩⟩
    hb h1 (fun p => by rw [h3]; simp [InL])
    (by
      intro f hf
      simp at hf
      subst hf
      refine ⟨⟨rfl, by decide, ?_⟩, rfl, rfl⟩
      intro e he
      simp [affineMap, buildAffineMap, affineExpr] at he
      subst he
      simp [AExpr.Below, dims])
    (by decide +kernel) (by decide)
    [true] (.cons trivial .nil) [] [-1] [[0]] (by decide)
    (.generic 1 [.div (.add (.mul (.dim 0) (.const 2)) (.const 1)) (.const 2)]) (by simp)
    [0] [0] (.cons ⟨by decide, by decide⟩ .nil) (by decide)
    (mapsTo_of_ranges (by decide +kernel)) (mapsTo_of_ranges (by decide +kernel))
  simp at hc

theorem overlapping_mem {v : Nat} {s written : IndexSet} : ∀ {reads : List (Nat × AccessFn)}
    {l : List AccessFn}, overlapping v s written reads = some l → ∀ f, (v, f) ∈ reads →
    ∃ t, f.mapSet s = some t ∧ (t.overlapsSet written = true → f ∈ l) := by
  intro reads
  induction reads with
  | nil => simp
  | cons a rs ih =>
    obtain ⟨x, g⟩ := a
    intro l h f hf
    unfold overlapping at h
    split_ifs at h with hx
    · refine ih h f ?_
      rcases List.mem_cons.1 hf with hf | hf
      · simp only [Prod.mk.injEq] at hf
        exact absurd hf.1.symm hx
      · exact hf
    · simp only [Option.bind_eq_bind, Option.bind_eq_some_iff, Option.some.injEq] at h
      obtain ⟨t, ht, l', hl', rfl⟩ := h
      rcases List.mem_cons.1 hf with hf | hf
      · simp only [Prod.mk.injEq] at hf
        obtain ⟨-, rfl⟩ := hf
        exact ⟨t, ht, fun ho => by simp [ho]⟩
      · obtain ⟨t', a1, a2⟩ := ih hl' f hf
        refine ⟨t', a1, fun ho => ?_⟩
        split_ifs
        · exact List.mem_cons_of_mem _ (a2 ho)
        · exact a2 ho

/-- Whatever the index set (any number of boxes): if the iteration `d` reads an element written by
the iteration `d'`, then, loop by loop, `d'` does not come after `d` in any order allowed by the
directions. -/
theorem C35_order_partial (S : Simplifier) (v : Nat) (m : AffineMap)
    (reads : List (Nat × AccessFn)) (s : IndexSet) (dirs ds : List DirP) (hm : RotoOk m)
    (hs : SetOk m.dims s)
    (hr : ∀ f, (v, f) ∈ reads → ReadOk m.dims m.results.length f)
    (h : directions S m.dims s [(v, .roto m)] reads = some dirs)
    (hd : scheduleAsRange dirs = some ds) :
    ds.length = m.dims ∧ ∀ f, (v, f) ∈ reads → ∀ d d' q, Has s d → Has s d' → MapsTo f d q →
      MapsTo (.roto m) d' q → ∀ (i : Nat) (dir : DirP) (b : Bool) (x y : Int), ds[i]? = some dir →
        Allows dir b → d'[i]? = some x → d[i]? = some y → (b = true → x ≤ y) ∧ (b = false → y ≤ x) := by
  have hds : ds = dirs ∧ ∀ x ∈ dirs, x ≠ .scalar := by
    unfold scheduleAsRange at hd
    split_ifs at hd with h0
    refine ⟨(Option.some.inj hd).symm, ?_⟩
    simpa [List.all_eq_true] using h0
  obtain ⟨rfl, hns⟩ := hds
  have hp : preferred [(v, .roto m)] = some (v, .roto m) := by
    unfold preferred
    cases hi : (AccessFn.roto m).isInvertible <;> simp [List.find?, hi]
  unfold directions at h
  rw [hp] at h
  simp only [Option.bind_eq_bind, Option.bind_eq_some_iff] at h
  obtain ⟨written, hw, rs, hrs, h⟩ := h
  obtain ⟨w1, w2⟩ := roto_mapSet_cover hm hs hw
  -- reads that meet the written indices are kept
  have hkeep : ∀ f, (v, f) ∈ reads → ∀ d d' q, Has s d → Has s d' → MapsTo f d q →
      MapsTo (.roto m) d' q → f ∈ rs := by
    intro f hf d d' q hd1 hd2 h1 h2
    obtain ⟨t, t1, t2⟩ := overlapping_mem hrs f hf
    obtain ⟨c1, c2⟩ := mapSet_cover hm.dims (hr f hf) hs t1
    refine t2 ((C10_overlapsSet _ t written c1 w1).2 ⟨q, c2 d q hd1 h1, w2 d' q hd2 ?_⟩)
    exact (mapsTo_roto hm (by rw [has_length hs hd2])).1 h2
  split_ifs at h with he
  · simp only [List.isEmpty_iff] at he
    rw [← Option.some.inj h]
    refine ⟨by simp, fun f hf d d' q hd1 hd2 h1 h2 => ?_⟩
    have := hkeep f hf d d' q hd1 hd2 h1 h2
    rw [he] at this
    simp at this
  · simp only [directionsReads, Option.map_eq_some_iff] at h
    obtain ⟨o, ho, h⟩ := h
    cases o with
    | none =>
      exfalso
      simp only [Option.getD_none] at h
      refine hns .scalar ?_ rfl
      rw [← h]
      exact List.mem_replicate.2 ⟨hm.dims, rfl⟩
    | some out =>
      simp only [Option.getD_some] at h
      subst h
      refine ⟨?_, fun f hf d d' q hd1 hd2 h1 h2 => ?_⟩
      · -- the length of the directions
        unfold directionsRoto at ho
        split at ho
        · rename_i gm hg
          have hsome : ((AccessFn.roto m).inverse S).isSome = true := by rw [hg]; rfl
          have hI : rotoInvertible m = true := (C21_inverse S m hm).1.1 hsome
          obtain ⟨re, e1, e2, -, -⟩ := rotoInverse_vals S hm hI
          have hg' : rotoInverse S m = some (.roto gm) := hg
          rw [e1] at hg'
          obtain ⟨-, k2, -⟩ := buildMap_roto (Option.some.inj hg')
          simp only at k2
          have hgne : gm.results ≠ [] := by
            rw [← List.length_pos_iff, k2, e2]; exact Nat.pos_of_ne_zero hm.dims
          obtain ⟨r1, -, -⟩ := readLoop_spec S (.roto gm) gm hgne rs [] out ho (Or.inl rfl)
          rw [r1 (Or.inl (by rintro rfl; simp at he)), k2, e2]
        · simp at ho
      · exact (readLoop_order S hm ho (hkeep f hf d d' q hd1 hd2 h1 h2) (hr f hf)
          (has_length hs hd1) (has_length hs hd2) h1 h2).2

/-- The loop nest over a box computes every element before it is read. Missing from `C35_full`:
read accesses with divisions. -/
theorem C35_loops_partial (S : Simplifier) (v : Nat) (m : AffineMap)
    (reads : List (Nat × AccessFn)) (b : Box) (s : IndexSet) (dirs ds : List DirP) (hm : RotoOk m)
    (hb : Ranked m.dims b) (hs : SetOk m.dims s) (hsb : ∀ p, Has s p ↔ InB p b)
    (hr : ∀ f, (v, f) ∈ reads → ReadOk m.dims m.results.length f)
    (h : directions S m.dims s [(v, .roto m)] reads = some dirs)
    (hd : scheduleAsRange dirs = some ds) : ComputedFirst v (.roto m) reads b ds := by
  intro fwd hfw pre d post hn f hf d' q hd' hne h1 h2
  obtain ⟨hl, hord⟩ := C35_order_partial S v m reads s dirs ds hm hs hr h hd
  have hfl : fwd.length = m.dims := by rw [← hfw.length_eq, hl]
  have e1 : (b.zip fwd).map Prod.fst = b := by
    rw [List.map_fst_zip]; have := hb.2; omega
  have e2 : (b.zip fwd).map Prod.snd = fwd := by
    rw [List.map_snd_zip]; have := hb.2; omega
  have hdm : InB d b := by
    have : d ∈ nest (b.zip fwd) := by rw [hn]; simp
    rw [mem_nest, e1] at this
    exact this
  refine before_of_notAfter hn (by rw [mem_nest, e1]; exact hd') hne ?_
  rw [e2]
  intro i g x y hg hx hy
  have hil := (List.getElem?_eq_some_iff.1 hg).1
  have hdi : ds[i]? = some (ds[i]'(by omega)) := List.getElem?_eq_getElem (by omega)
  have hal : Allows (ds[i]'(by omega)) g := by
    have := (List.forall₂_iff_get.1 hfw).2 i (by omega) hil
    have hg' := (List.getElem?_eq_some_iff.1 hg).2
    simpa [hg'] using this
  exact hord f hf d d' q ((hsb d).2 hdm) ((hsb d').2 hd') h1 h2 i _ g x y hdi hal hx hy

/-- An equation with a dependency that no choice of directions orders is scheduled as scalars. -/
theorem C35_scalars_partial (S : Simplifier) (v : Nat) (m : AffineMap)
    (reads : List (Nat × AccessFn)) (b : Box) (s : IndexSet) (dirs : List DirP) (hm : RotoOk m)
    (hb : Ranked m.dims b) (hs : SetOk m.dims s) (hsb : ∀ p, Has s p ↔ InB p b)
    (hr : ∀ f, (v, f) ∈ reads → ReadOk m.dims m.results.length f)
    (h : directions S m.dims s [(v, .roto m)] reads = some dirs)
    (hno : ∀ ds, .scalar ∉ ds → ¬ ComputedFirst v (.roto m) reads b ds) :
    scheduleAsRange dirs = none := by
  cases hd : scheduleAsRange dirs with
  | none => rfl
  | some ds =>
    exfalso
    refine hno ds ?_ (C35_loops_partial S v m reads b s dirs ds hm hb hs hsb hr h hd)
    unfold scheduleAsRange at hd
    split_ifs at hd with h0
    rw [← Option.some.inj hd]
    intro hc
    have := List.all_eq_true.1 h0 _ hc
    simp at this

/-! ### A concrete case -/

-- `x[j + 1, i] = f(x[j, i], x[j + 1, i + 2], x[0, 9], y[i])` for `(i, j)` in `[0, 4) × [0, 5)`: the
-- first read wants `j` to increase, the second one `i` to decrease, the third one is not written
-- by the equation.
/-- Sample write access. -/
def sampleWrite : AffineMap := ⟨2, [.add (.dim 1) (.const 1), .dim 0]⟩
/-- Sample reads of variable `7`, and of another variable. -/
def sampleReads : List (Nat × AccessFn) :=
  [(7, .roto ⟨2, [.dim 1, .dim 0]⟩), (3, .roto ⟨2, [.dim 0]⟩),
   (7, .roto ⟨2, [.add (.dim 1) (.const 1), .add (.dim 0) (.const 2)]⟩),
   (7, .affConst ⟨2, [.const 0, .const 9]⟩)]
/-- Sample iteration box. -/
def sampleBox : Box := [⟨0, 4⟩, ⟨0, 5⟩]

theorem sampleDirections : directions foldSimp 2 (IndexSet.ofRanges [sampleBox])
    [(7, .roto sampleWrite)] sampleReads = some [.backward, .forward] := by decide +kernel

-- An additional read `x[3, 3]`, which some iteration writes: scalars.
example : (directions foldSimp 2 (IndexSet.ofRanges [sampleBox]) [(7, .roto sampleWrite)]
    (sampleReads ++ [(7, .affConst ⟨2, [.const 3, .const 3]⟩)])).map scheduleAsRange
      = some none := by decide +kernel
-- Opposite requirements: scalars.
example : (directions foldSimp 1 (IndexSet.ofRanges [[⟨0, 9⟩]]) [(7, .roto ⟨1, [.dim 0]⟩)]
    [(7, .roto ⟨1, [.add (.dim 0) (.const 1)]⟩), (7, .roto ⟨1, [.add (.dim 0) (.const (-1))]⟩)]).map
      scheduleAsRange = some none := by decide +kernel

theorem sampleWrite_ok : RotoOk sampleWrite := ⟨by decide, by decide, by
  intro e he
  simp only [sampleWrite, List.mem_cons, List.not_mem_nil, or_false] at he
  rcases he with rfl | rfl
  · exact ⟨_, _, .addR 1 (by decide)⟩
  · exact ⟨_, _, .dim (by decide)⟩⟩

theorem sampleBox_ranked : Ranked 2 sampleBox :=
  ⟨⟨by simp [sampleBox], by simp [sampleBox, Range.Valid]⟩, rfl⟩

theorem sampleReads_ok : ∀ f, (7, f) ∈ sampleReads → ReadOk 2 2 f := by
  have hroto : ∀ m : AffineMap, m.dims = 2 → m.results.length = 2 → RotoOk m →
      ReadOk 2 2 (.roto m) := by
    intro m h1 h2 hm
    refine ⟨⟨rfl, hm.nonempty, ?_⟩, ?_, h1, h2, Or.inl ⟨m, rfl, hm⟩⟩
    · intro e he
      obtain ⟨v, c, hr⟩ := hm.form e he
      exact (roto_noDiv hr).2
    · intro e he
      obtain ⟨v, c, hr⟩ := hm.form e he
      exact (roto_noDiv hr).1
  intro f hf
  simp only [sampleReads, List.mem_cons, Prod.mk.injEq, List.not_mem_nil, or_false, true_and,
    Nat.reduceEqDiff, false_and, false_or] at hf
  rcases hf with rfl | rfl | rfl
  · refine hroto _ rfl rfl ⟨by decide, by decide, ?_⟩
    intro e he
    simp only [List.mem_cons, List.not_mem_nil, or_false] at he
    rcases he with rfl | rfl
    · exact ⟨_, _, .dim (by decide)⟩
    · exact ⟨_, _, .dim (by decide)⟩
  · refine hroto _ rfl rfl ⟨by decide, by decide, ?_⟩
    intro e he
    simp only [List.mem_cons, List.not_mem_nil, or_false] at he
    rcases he with rfl | rfl
    · exact ⟨_, _, .addR 1 (by decide)⟩
    · exact ⟨_, _, .addR 2 (by decide)⟩
  · refine ⟨⟨rfl, by decide, ?_⟩, ?_, rfl, rfl, Or.inr (Or.inl ⟨[0, 9], rfl⟩)⟩ <;>
    · intro e he
      simp [affineMap] at he
      rcases he with rfl | rfl <;> trivial

example : ComputedFirst 7 (.roto sampleWrite) sampleReads sampleBox [.backward, .forward] := by
  obtain ⟨h1, -, h3, -⟩ := ofRanges_spec (k := 2) (rs := [sampleBox]) (by simpa using sampleBox_ranked)
  exact C35_loops_partial foldSimp 7 sampleWrite sampleReads sampleBox _ _ _ sampleWrite_ok
    sampleBox_ranked h1 (fun p => by rw [h3]; simp [InL]) sampleReads_ok sampleDirections (by decide)

end Marco.Props
