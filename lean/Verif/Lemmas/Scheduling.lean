import Verif.Model.Scheduling
import Verif.Spec.Scheduling
import Verif.Props.C10_Queries
import Verif.Props.C22_Image
import Verif.Props.C36_MergeDirections

/-!
# Lemmas on the choice of the iteration directions
-/

namespace Marco.Props
open Marco Spec IndexSet DimAccess AccessFn Scheduling

/-! ### Loop nests -/

theorem mem_intsOf {r : Range} {x : Int} : x ∈ intsOf r ↔ InR x r := by
  simp only [intsOf, List.mem_map, List.mem_range, InR]
  constructor
  · rintro ⟨i, hi, rfl⟩; omega
  · intro h; exact ⟨(x - r.b).toNat, by omega, by omega⟩

theorem intsOf_sorted (r : Range) : (intsOf r).Pairwise (· < ·) := by
  unfold intsOf
  rw [List.pairwise_map]
  exact List.Pairwise.imp (fun h => by omega) List.pairwise_lt_range

theorem mem_nest {ls : List (Range × Bool)} {p : Point} :
    p ∈ nest ls ↔ InB p (ls.map Prod.fst) := by
  induction ls generalizing p with
  | nil => simp [nest, InB]
  | cons a ls ih =>
    obtain ⟨r, f⟩ := a
    have hm : ∀ x, x ∈ (if f then intsOf r else (intsOf r).reverse) ↔ InR x r := by
      intro x; split <;> simp [mem_intsOf]
    simp only [nest, List.mem_flatMap, hm, List.mem_map, ih]
    constructor
    · rintro ⟨x, hx, q, hq, rfl⟩; exact .cons hx hq
    · intro h
      cases h with
      | cons hx hq => exact ⟨_, hx, _, hq, rfl⟩

/-- Coordinate by coordinate, `p` does not come after `q`. -/
def NotAfter (fs : List Bool) (p q : Point) : Prop :=
  ∀ (i : Nat) (f : Bool) (x y : Int), fs[i]? = some f → p[i]? = some x → q[i]? = some y →
    (f = true → x ≤ y) ∧ (f = false → y ≤ x)

/-- An iteration executed later is not before, coordinate by coordinate. -/
theorem nest_order (ls : List (Range × Bool)) :
    (nest ls).Pairwise fun p q => ¬ NotAfter (ls.map Prod.snd) q p := by
  induction ls with
  | nil => simp [nest]
  | cons a ls ih =>
    obtain ⟨r, f⟩ := a
    have hs : (if f then intsOf r else (intsOf r).reverse).Pairwise
        fun x y => (f = true → x < y) ∧ (f = false → y < x) := by
      cases f
      · simp only [Bool.false_eq_true, if_false, List.pairwise_reverse]
        exact (intsOf_sorted r).imp (fun h => ⟨by simp, fun _ => h⟩)
      · simp only [if_true]
        exact (intsOf_sorted r).imp (fun h => ⟨fun _ => h, by simp⟩)
    simp only [nest]
    generalize (if f then intsOf r else (intsOf r).reverse) = xs at hs
    induction xs with
    | nil => simp
    | cons x xs ihx =>
      rw [List.pairwise_cons] at hs
      rw [List.flatMap_cons, List.pairwise_append]
      refine ⟨?_, ihx hs.2, ?_⟩
      · rw [List.pairwise_map]
        refine ih.imp ?_
        intro p q h hn
        exact h fun i g u v hg hu hv => hn (i + 1) g u v (by simpa using hg) (by simpa using hu)
          (by simpa using hv)
      · intro p hp q hq hn
        obtain ⟨p', -, rfl⟩ := List.mem_map.1 hp
        obtain ⟨y, hy, hq⟩ := List.mem_flatMap.1 hq
        obtain ⟨q', -, rfl⟩ := List.mem_map.1 hq
        have h1 := hs.1 y hy
        have h2 := hn 0 f y x (by simp) (by simp) (by simp)
        cases f
        · have := h1.2 rfl; have := h2.2 rfl; omega
        · have := h1.1 rfl; have := h2.1 rfl; omega

theorem before_of_notAfter {ls : List (Range × Bool)} {pre post : List Point} {d d' : Point}
    (h : nest ls = pre ++ d :: post) (hd : d' ∈ nest ls) (hne : d' ≠ d)
    (hn : NotAfter (ls.map Prod.snd) d' d) : d' ∈ pre := by
  have hp := nest_order ls
  rw [h] at hp hd
  rw [List.pairwise_append, List.pairwise_cons] at hp
  rcases List.mem_append.1 hd with hd | hd
  · exact hd
  · rcases List.mem_cons.1 hd with hd | hd
    · exact absurd hd hne
    · exact absurd hn (hp.2.1.1 d' hd)

/-! ### Images contain the images of the points -/

theorem rotoMapBox_cover {m : AffineMap} (hm : RotoOk m) {b : Box} (hb : Ranked m.dims b) :
    ∃ b', rotoMapBox m b = some b' ∧ Ranked m.results.length b' ∧
      ∀ p q, InB p b → Vals m.results p q → InB q b' := by
  obtain ⟨b', h1, h2, h3⟩ := rotoMapBox_get hm hb
  refine ⟨b', h1, ⟨⟨?_, ?_⟩, h2⟩, fun p q hp hv => ?_⟩
  · rw [← List.length_pos_iff, h2]
    exact List.length_pos_iff.2 hm.nonempty
  · intro r hr
    obtain ⟨i, hi⟩ := List.mem_iff_getElem?.1 hr
    have hil := (List.getElem?_eq_some_iff.1 hi).1
    have he : m.results[i]? = some m.results[i] := List.getElem?_eq_getElem (by omega)
    obtain ⟨v, c, hro⟩ := hm.form _ (List.mem_of_getElem? he)
    have h4 := h3 i _ v c he hro
    cases v with
    | none =>
      have := h4.1 rfl
      rw [hi] at this
      rw [Option.some.inj this]
      show c < c + 1
      omega
    | some d =>
      obtain ⟨r', hr', h5⟩ := h4.2 d rfl
      rw [hi] at h5
      have hv : r'.Valid := hb.1.2 _ (List.mem_of_getElem? hr')
      have hv' : r'.b < r'.e := hv
      rw [Option.some.inj h5]
      show r'.b + c < r'.e + c
      omega
  · rw [inB_iff_get]
    rw [vals_iff_get] at hv
    rw [inB_iff_get] at hp
    refine ⟨by omega, fun i r y hr hy => ?_⟩
    have hil := (List.getElem?_eq_some_iff.1 hr).1
    have he : m.results[i]? = some m.results[i] := List.getElem?_eq_getElem (by omega)
    obtain ⟨v, c, hro⟩ := hm.form _ (List.mem_of_getElem? he)
    have h4 := h3 i _ v c he hro
    have h5 := hv.2 i _ y he hy
    cases v with
    | none =>
      rw [h4.1 rfl] at hr
      rw [roto_const hro] at h5
      rw [← Option.some.inj hr, ← Option.some.inj h5]
      exact ⟨by simp, by simp⟩
    | some d =>
      obtain ⟨r', hr', h6⟩ := h4.2 d rfl
      rw [h6] at hr
      rw [roto_eval hro] at h5
      obtain ⟨a1, a2⟩ := hp.2 d r' _ hr' h5
      rw [← Option.some.inj hr]
      exact ⟨by simp only; omega, by simp only; omega⟩

theorem roto_mapSet_cover {m : AffineMap} (hm : RotoOk m) {s t : IndexSet} (hs : SetOk m.dims s)
    (h : (AccessFn.roto m).mapSet s = some t) :
    SetOk m.results.length t ∧ ∀ p q, Has s p → Vals m.results p q → Has t q := by
  have key : ∀ l : List Box, (∀ b ∈ l, Ranked m.dims b) → ∀ l', l.mapM (rotoMapBox m) = some l' →
      (∀ b ∈ l', Ranked m.results.length b) ∧
      ∀ p q, InL p l → Vals m.results p q → InL q l' := by
    intro l
    induction l with
    | nil => intro _ l' h; simp at h; subst h; exact ⟨by simp, by simp [InL]⟩
    | cons b l ih =>
      intro hl l' h
      obtain ⟨b', a1, a2, a3⟩ := rotoMapBox_cover hm (hl b (by simp))
      rw [List.mapM_cons, a1] at h
      simp only [Option.bind_eq_bind, Option.bind_some, Option.bind_eq_some_iff] at h
      obtain ⟨l2, h2, h3⟩ := h
      have h3 := Option.some.inj h3
      subst h3
      obtain ⟨c1, c2⟩ := ih (fun b hb => hl b (by simp [hb])) l2 h2
      refine ⟨?_, fun p q hp hv => ?_⟩
      · intro x hx
        rcases List.mem_cons.1 hx with rfl | hx
        · exact a2
        · exact c1 x hx
      · rw [inL_cons] at hp ⊢
        rcases hp with hp | hp
        · exact Or.inl (a3 p q hp hv)
        · exact Or.inr (c2 p q hp hv)
  simp only [AccessFn.mapSet, Option.map_eq_some_iff] at h
  obtain ⟨l', h1, rfl⟩ := h
  obtain ⟨k1, k2⟩ := key s.ranges (ranges_ranked hs) l' h1
  obtain ⟨b1, -, b3, -⟩ := ofRanges_spec k1
  exact ⟨b1, fun p q hp hv => by rw [b3]; exact k2 p q hp hv⟩

theorem mapsTo_iff_vals {n k : Nat} {f : AccessFn} (hf : ReadOk n k f) {p q : Point}
    (hp : n ≤ p.length) : MapsTo f p q ↔ Vals f.affineMap.results p q := by
  have he : ∀ m, f ≠ .empty m := by
    rcases hf.kind with ⟨m, rfl, -⟩ | ⟨cs, rfl⟩ | ⟨rs, rfl⟩ <;> simp
  obtain ⟨q', hq'⟩ := vals_exists (n := f.dims) (p := p)
    (fun e he => ⟨hf.noDiv e he, hf.ok.below e he⟩) (by rw [hf.dims]; exact hp)
  have h1 : MapsTo f p q' := by
    obtain ⟨s, s1, -, s3⟩ := mapPoint_vals hf.ok.affine hf.ok.nonempty he
      (by rw [hf.dims]; exact hp) hq' (fun e he => AExpr.noDiv_divOk (hf.noDiv e he) p)
    exact ⟨s, s1, s3⟩
  constructor
  · intro h; rw [← mapsTo_unique h1 h]; exact hq'
  · intro h; rw [← vals_unique hq' h]; exact h1

theorem mapSet_cover {n k : Nat} {f : AccessFn} (hn : n ≠ 0) (hf : ReadOk n k f) {s t : IndexSet}
    (hs : SetOk n s) (h : f.mapSet s = some t) :
    SetOk k t ∧ ∀ p q, Has s p → MapsTo f p q → Has t q := by
  have hd := hf.dims
  have hr := hf.results
  have hne := hf.ok.nonempty
  rcases hf.kind with ⟨m, rfl, hm⟩ | ⟨cs, rfl⟩ | ⟨rs, rfl⟩
  · change m.dims = n at hd
    change m.results.length = k at hr
    subst hd hr
    obtain ⟨a1, a2⟩ := roto_mapSet_cover hm hs h
    exact ⟨a1, fun p q hp hv => a2 p q hp
      ((mapsTo_roto hm (by rw [has_length hs hp])).1 hv)⟩
  · have hcs : cs ≠ [] := by rintro rfl; exact hne rfl
    have hkl : cs.length = k := by simpa [numResults] using hr
    by_cases hse : s.isEmpty = true
    · simp only [AccessFn.mapSet, hse, Bool.true_and, bne_iff_ne, ne_eq, hn, not_false_eq_true,
        if_true, Option.some.injEq] at h
      subst h
      exact ⟨setOk_empty k, fun p q hp _ => absurd hp ((setOk_isEmpty hs).1 hse p)⟩
    · have hce : (cs.map AExpr.const).isEmpty = false := by simpa using hcs
      have ht : t = IndexSet.ofPoints [cs] := by
        simp only [AccessFn.mapSet, constResults_eq, hce, Bool.and_eq_true, bne_iff_ne] at h
        rw [if_neg (by simp [hse])] at h
        simpa using h.symm
      subst ht
      obtain ⟨a1, a2⟩ := ofPoint_single hcs
      refine ⟨hkl ▸ a1, fun p q hp hv => (a2 q).2 ?_⟩
      have := (mapsTo_iff_vals hf (by rw [has_length hs hp])).1 hv
      exact vals_unique this (constVals cs p)
  · have hk : ∀ p u, Has s p → genericMap rs p = some u → SetOk k u := by
      intro p u hp hu
      have hpl : n ≤ p.length := by rw [has_length hs hp]
      obtain ⟨q, hq⟩ := vals_exists (n := n) (p := p)
        (fun e he => ⟨hf.noDiv e he, hf.ok.below e he⟩) hpl
      obtain ⟨u', s1, s2, -⟩ := mapPoint_vals hf.ok.affine hf.ok.nonempty (by simp)
        hpl hq (fun e he => AExpr.noDiv_divOk (hf.noDiv e he) p)
      have s1' : genericMap rs p = some u' := s1
      rw [hu] at s1'
      have := Option.some.inj s1'
      subst this
      rw [affineMap_results_length hf.ok.affine, hf.results] at s2
      exact s2
    have hg := C22_generic k n rs s t hn hk h
    refine ⟨?_, fun p q hp hv => ?_⟩
    · -- rank of the union
      have key : ∀ (l : List Point) (acc t : IndexSet), SetOk k acc →
          (∀ p ∈ l, ∀ u, genericMap rs p = some u → SetOk k u) →
          l.foldlM (fun acc p => (genericMap rs p).map acc.union) acc = some t → SetOk k t := by
        intro l
        induction l with
        | nil => intro acc t ha _ h; simp at h; subst h; exact ha
        | cons p l ih =>
          intro acc t ha hl h
          simp only [List.foldlM_cons, Option.bind_eq_bind, Option.bind_eq_some_iff,
            Option.map_eq_some_iff] at h
          obtain ⟨a, ⟨u, hu, rfl⟩, h⟩ := h
          obtain ⟨u1, -⟩ := union_spec ha (hl p (by simp) u hu)
          exact ih _ t u1 (fun p hp => hl p (by simp [hp])) h
      exact key s.points IndexSet.empty t (setOk_empty k)
        (fun p hp u hu => hk p u (mem_points.1 hp) hu) h
    · obtain ⟨u, hu, hx⟩ := hv
      exact (hg q).2 ⟨p, Or.inl hp, u, hu, (hx q).2 rfl⟩

/-! ### The loop over the reads -/

theorem rotate_spec {acc : List DirP} : ∀ {es : List AExpr} {rot : List DirP},
    rotate acc es = some (some rot) → rot.length = es.length ∧
    ∀ (i : Nat) (e : AExpr), es[i]? = some e → ∃ k x, inductionVar e = some k ∧ acc[k]? = some x ∧
      rot[i]? = some x := by
  intro es
  induction es with
  | nil => intro rot h; simp [rotate] at h; subst h; simp
  | cons e es ih =>
    intro rot h
    unfold rotate at h
    cases hd : inductionVar e with
    | none => simp [hd] at h
    | some d =>
      simp only [hd, Option.bind_eq_bind, Option.bind_eq_some_iff, Option.some.injEq] at h
      obtain ⟨x, hx, r, hr, h⟩ := h
      cases r with
      | none => simp at h
      | some r =>
        simp only [Option.map_some, Option.some.injEq] at h
        subst h
        obtain ⟨a1, a2⟩ := ih hr
        refine ⟨by simp [a1], fun i e' he => ?_⟩
        cases i with
        | zero => simp at he; subst he; exact ⟨d, x, hd, hx, by simp⟩
        | succ i => simpa using a2 i e' (by simpa using he)

theorem mapM_offset {es : List AExpr} {os : List Int} (h : es.mapM offset = some os) :
    ∀ (i : Nat) (o : Int), os[i]? = some o → ∃ e, es[i]? = some e ∧ offset e = some o := by
  induction es generalizing os with
  | nil => simp at h; subst h; simp
  | cons e es ih =>
    rw [List.mapM_cons] at h
    simp only [Option.bind_eq_bind, Option.bind_eq_some_iff] at h
    obtain ⟨o, ho, os', h2, h3⟩ := h
    have h3 := Option.some.inj h3
    subst h3
    intro i o' hi
    cases i with
    | zero => simp at hi; subst hi; exact ⟨e, by simp, ho⟩
    | succ i => simpa using ih h2 i o' (by simpa using hi)

theorem identityLike_get : ∀ {es : List AExpr} {j : Nat}, identityLike j es = true →
    ∀ (i : Nat) (e : AExpr), es[i]? = some e → inductionVar e = some (j + i) := by
  intro es
  induction es with
  | nil => simp
  | cons e es ih =>
    intro j h i e' he
    unfold identityLike at h
    cases hd : inductionVar e with
    | none => simp [hd] at h
    | some d =>
      simp only [hd, Bool.and_eq_true, beq_iff_eq] at h
      cases i with
      | zero => simp at he; subst he; simp [hd, h.1]
      | succ i =>
        have := ih h.2 i e' (by simpa using he)
        rw [this]; congr 1; omega

theorem readLoop_spec (S : Simplifier) (g : AccessFn) (gm : AffineMap) (hne : gm.results ≠ []) :
    ∀ (rs : List AccessFn) (dirs out : List DirP), readLoop S g gm rs dirs = some (some out) →
    (dirs = [] ∨ dirs.length = gm.results.length) →
    (rs ≠ [] ∨ dirs ≠ [] → out.length = gm.results.length) ∧
    (∀ (i : Nat) (d e : DirP) (b : Bool), out[i]? = some d → Allows d b → dirs[i]? = some e → Allows e b) ∧
    ∀ r ∈ rs, ∃ m offs rot, g.combine S r = .roto m ∧ identityLike 0 m.results = true ∧
      m.results.mapM offset = some offs ∧
      rotate (offs.map offsetDir) gm.results = some (some rot) ∧
      ∀ (i : Nat) (d e : DirP) (b : Bool), out[i]? = some d → Allows d b → rot[i]? = some e →
        Allows e b := by
  intro rs
  induction rs with
  | nil =>
    intro dirs out h hd
    simp only [readLoop, Option.some.injEq] at h
    subst h
    refine ⟨?_, ?_, by simp⟩
    · rintro (h | h)
      · exact absurd rfl h
      · exact hd.resolve_left h
    · intro i d e b h1 h2 h3
      rw [h1] at h3
      rw [← Option.some.inj h3]; exact h2
  | cons r rs ih =>
    intro dirs out h hd
    unfold readLoop at h
    split at h
    · rename_i m hm
      split at h
      · simp at h
      · rename_i hid
        simp only [Option.bind_eq_bind, Option.bind_eq_some_iff] at h
        obtain ⟨offs, ho, ro, hro, h⟩ := h
        cases ro with
        | none => simp at h
        | some rot =>
          obtain ⟨r1, r2⟩ := rotate_spec hro
          simp only at h
          have hrl : rot ≠ [] := by
            rw [← List.length_pos_iff, r1]; exact List.length_pos_iff.2 hne
          set dirs' := if dirs.isEmpty then rot else mergeAll dirs rot with hdirs'
          have hl : dirs'.length = gm.results.length := by
            rw [hdirs']
            split_ifs with h0
            · exact r1
            · rcases hd with hd | hd
              · simp [hd] at h0
              · rw [mergeAll_length (by omega), hd]
          have hsub : ∀ (i : Nat) (d : DirP) (b : Bool), dirs'[i]? = some d → Allows d b →
              (∀ e, dirs[i]? = some e → Allows e b) ∧ ∀ e, rot[i]? = some e → Allows e b := by
            intro i d b h1 h2
            rw [hdirs'] at h1
            split_ifs at h1 with h0
            · simp only [List.isEmpty_iff] at h0
              refine ⟨by simp [h0], fun e he => ?_⟩
              rw [h1] at he; rw [← Option.some.inj he]; exact h2
            · rw [mergeAll_get] at h1
              simp only [Option.bind_eq_some_iff, Option.map_eq_some_iff] at h1
              obtain ⟨a, ha, c, hc, rfl⟩ := h1
              rw [C36_merge_meaning] at h2
              constructor
              · intro e he; rw [ha] at he; rw [← Option.some.inj he]; exact h2.1
              · intro e he; rw [hc] at he; rw [← Option.some.inj he]; exact h2.2
          split at h
          · simp at h
          · obtain ⟨k1, k2, k3⟩ := ih dirs' out h (Or.inr hl)
            have hdne : dirs' ≠ [] := by
              rw [← List.length_pos_iff, hl]; exact List.length_pos_iff.2 hne
            have hol := k1 (Or.inr hdne)
            have key : ∀ (i : Nat) (d : DirP) (b : Bool), out[i]? = some d → Allows d b →
                (∀ e, dirs[i]? = some e → Allows e b) ∧ ∀ e, rot[i]? = some e → Allows e b := by
              intro i d b h1 h2
              have hil := (List.getElem?_eq_some_iff.1 h1).1
              have e1 : dirs'[i]? = some (dirs'[i]'(by omega)) := List.getElem?_eq_getElem (by omega)
              exact hsub i _ b e1 (k2 i d _ b h1 h2 e1)
            refine ⟨fun _ => hol, fun i d e b h1 h2 h3 => (key i d b h1 h2).1 e h3, ?_⟩
            intro r' hr'
            rcases List.mem_cons.1 hr' with rfl | hr'
            · exact ⟨m, offs, rot, hm, by simpa using hid, ho, hro,
                fun i d e b h1 h2 h3 => (key i d b h1 h2).2 e h3⟩
            · exact k3 r' hr'
    · simp at h

/-! ### Shape of the results of offset/permutation accesses -/

/-- The possible results of an offset/permutation access. -/
def RotoForm (e : AExpr) : Prop :=
  (∃ d, e = .dim d) ∨ (∃ c, e = .const c) ∨ (∃ d c, e = .add (.dim d) (.const c)) ∨
    ∃ d c, e = .add (.const c) (.dim d)

theorem buildMap_roto {S : Simplifier} {M m : AffineMap} (h : buildMap S M = .roto m) :
    m.dims = M.dims ∧ m.results.length = M.results.length ∧ ∀ e ∈ m.results, RotoForm e := by
  rw [buildMap_eq] at h
  obtain ⟨-, h2, -, -, -⟩ := dispatch_affine M.dims (M.results.map (S.fn M.dims))
  have hm : m = ⟨M.dims, M.results.map (S.fn M.dims)⟩ := by
    rw [h] at h2
    exact h2
  refine ⟨by rw [hm], by rw [hm]; simp, ?_⟩
  unfold dispatch at h
  split_ifs at h with c1 c2 c3 c4
  simp only [Bool.and_eq_true] at c4
  intro e he
  rw [hm] at he
  have hc := List.all_eq_true.1 c4.2 (DimAccess.build e) (List.mem_map_of_mem he)
  cases e with
  | const c => exact Or.inr (Or.inl ⟨c, rfl⟩)
  | dim d => exact Or.inl ⟨d, rfl⟩
  | add a b =>
    cases a <;> cases b <;> simp [DimAccess.build, isRotoLike, isDim, isConst] at hc
    · exact Or.inr (Or.inr (Or.inr ⟨_, _, rfl⟩))
    · exact Or.inr (Or.inr (Or.inl ⟨_, _, rfl⟩))
  | mul a b => simp [DimAccess.build, isRotoLike] at hc
  | floorDiv a b => simp [DimAccess.build, isRotoLike] at hc

theorem rotoForm_eval {e : AExpr} (h : RotoForm e) {d : Nat} (hd : inductionVar e = some d) :
    ∃ o, offset e = some o ∧ ∀ (p : Point) (v : Int), e.eval p = some v → p[d]? = some (v - o) := by
  rcases h with ⟨d', rfl⟩ | ⟨c, rfl⟩ | ⟨d', c, rfl⟩ | ⟨d', c, rfl⟩ <;>
    simp only [inductionVar, inductionVar.pick, Option.some.injEq, reduceCtorEq] at hd
  · subst hd
    exact ⟨0, rfl, fun p v h => by simpa [AExpr.eval] using h⟩
  · subst hd
    refine ⟨c, rfl, fun p v h => ?_⟩
    simp only [AExpr.eval, Option.bind_eq_bind, Option.bind_eq_some_iff, Option.some.injEq] at h
    obtain ⟨x, hx, y, rfl, rfl⟩ := h
    rw [hx]; congr 1; omega
  · subst hd
    refine ⟨c, rfl, fun p v h => ?_⟩
    simp only [AExpr.eval, Option.bind_eq_bind, Option.bind_eq_some_iff, Option.some.injEq] at h
    obtain ⟨x, rfl, y, hy, rfl⟩ := h
    rw [hy]; congr 1; omega

theorem rotoForm_noDiv {e : AExpr} (h : RotoForm e) : e.NoDiv := by
  rcases h with ⟨d', rfl⟩ | ⟨c, rfl⟩ | ⟨d', c, rfl⟩ | ⟨d', c, rfl⟩ <;> simp [AExpr.NoDiv]

theorem combine_affine (S : Simplifier) {f h : AccessFn} (hf : f.isAffine = true)
    (hh : h.isAffine = true) : ∃ M, f.combine S h = buildMap S M := by
  obtain ⟨es, e1, -, -, -⟩ := withDims_affine S hh f.numResults
  obtain ⟨d1, d2, -, -, -⟩ := dispatch_affine (max h.dims f.numResults) es
  exact ⟨compose ⟨max h.dims f.numResults, es⟩ f.affineMap, by
    unfold combine
    simp only [e1, d1, hf, Bool.and_self, if_true, d2]⟩

/-- The map of an access of offset/permutation kind. -/
theorem vals_of_mapsTo_roto {m : AffineMap} {p q : Point} (hne : m.results ≠ [])
    (h : MapsTo (.roto m) p q) : Vals m.results p q := by
  obtain ⟨s, hs, hx⟩ := h
  simp only [mapPoint, Option.map_eq_some_iff] at hs
  obtain ⟨q', hq', rfl⟩ := hs
  have hv := (affinePoint_eq_some.1 hq').2
  have := (ofPoint_single (vals_ne_nil hv hne)).2 q'
  rw [hx] at this
  rw [← this.2 rfl]
  exact hv

/-- The element read at an iteration and written at another one: the distance between the two
iterations, loop by loop, is compatible with the directions chosen. -/
theorem readLoop_order (S : Simplifier) {m : AffineMap} (hm : RotoOk m) {reads : List AccessFn}
    {out : List DirP} (h : directionsRoto S m reads = some (some out)) {f : AccessFn}
    (hfm : f ∈ reads) (hf : ReadOk m.dims m.results.length f) {d d' q : Point}
    (hd : d.length = m.dims) (hd' : d'.length = m.dims) (h1 : MapsTo f d q)
    (h2 : MapsTo (.roto m) d' q) :
    out.length = m.dims ∧ ∀ (i : Nat) (dir : DirP) (b : Bool) (x y : Int), out[i]? = some dir →
      Allows dir b → d'[i]? = some x → d[i]? = some y → (b = true → x ≤ y) ∧ (b = false → y ≤ x) := by
  unfold directionsRoto at h
  split at h
  · rename_i gm hg
    have hsome : ((AccessFn.roto m).inverse S).isSome = true := by rw [hg]; rfl
    obtain ⟨hinv, hinv2⟩ := C21_inverse S m hm
    have hI : rotoInvertible m = true := hinv.1 hsome
    obtain ⟨g1, g2, g3⟩ := hinv2 _ hg
    obtain ⟨hl, -⟩ := (rotoInvertible_iff hm).1 hI
    obtain ⟨re, e1, e2, -, -⟩ := rotoInverse_vals S hm hI
    have hg' : rotoInverse S m = some (.roto gm) := hg
    rw [e1] at hg'
    obtain ⟨k1, k2, k3⟩ := buildMap_roto (Option.some.inj hg')
    simp only at k1 k2
    have hgl : gm.results.length = m.dims := by omega
    have hgne : gm.results ≠ [] := by
      rw [← List.length_pos_iff, hgl]; exact Nat.pos_of_ne_zero hm.dims
    have hGok : AffineOk (.roto gm) := by
      refine ⟨rfl, hgne, ?_⟩
      intro e he
      change e ∈ gm.results at he
      obtain ⟨p, -, hp⟩ := g3 (List.replicate m.dims 0) (by simp)
      have hv := vals_of_mapsTo_roto hgne hp
      obtain ⟨i, hi⟩ := List.mem_iff_getElem?.1 he
      have hil := (List.getElem?_eq_some_iff.1 hi).1
      have hvl := hv.length_eq
      have := AExpr.below_of_eval ((vals_iff_get.1 hv).2 i e _ hi (List.getElem?_eq_getElem (by omega)))
      simpa [dims, k1] using this
    obtain ⟨r1, -, r3⟩ := readLoop_spec S (.roto gm) gm hgne reads [] out h (Or.inl rfl)
    obtain ⟨rm, offs, rot, a1, a2, a3, a4, a5⟩ := r3 f hfm
    have hol := r1 (Or.inl (by rintro rfl; simp at hfm))
    refine ⟨by omega, ?_⟩
    -- the element written at `d`
    obtain ⟨q0, hq0⟩ := rotoOk_vals hm (p := d) (by omega)
    have hw : MapsTo (.roto m) d q0 := (mapsTo_roto hm (by omega)).2 hq0
    have hq0l : q0.length = m.dims := by rw [← hq0.length_eq]; exact hl.symm
    have hgd : Vals gm.results q0 d := vals_of_mapsTo_roto hgne (g1 d q0 hd hw)
    have hgd' : Vals gm.results q d' := vals_of_mapsTo_roto hgne (g1 d' q hd' h2)
    have hrel : MapsTo ((AccessFn.roto gm).combine S f) q0 q :=
      C20_combine_partial S _ f hGok hf.ok (fun e he => rotoForm_noDiv (k3 e he)) hf.noDiv
        (by rw [hf.dims]; show m.dims ≤ gm.results.length; omega) q0 d q
        (by show gm.dims ≤ _; omega) (g1 d q0 hd hw) h1
    rw [a1] at hrel
    obtain ⟨M, hM⟩ := combine_affine S (f := .roto gm) rfl hf.ok.affine
    rw [a1] at hM
    obtain ⟨-, -, b3⟩ := buildMap_roto hM.symm
    have hql : q.length = m.results.length := by
      have := (mapsTo_roto hm (by omega)).1 h2
      exact this.length_eq.symm
    have hrv : Vals rm.results q0 q := by
      by_cases hrne : rm.results = []
      · exfalso
        obtain ⟨u, hu, hx⟩ := hrel
        simp only [mapPoint, Option.map_eq_some_iff] at hu
        obtain ⟨q', hq', rfl⟩ := hu
        have hv := (affinePoint_eq_some.1 hq').2
        rw [hrne] at hv
        cases hv
        -- no result at all: the directions would have been looked up in an empty list
        obtain ⟨t1, t2⟩ := rotate_spec a4
        rw [hrne] at a3
        simp at a3
        subst a3
        have h0 : 0 < gm.results.length := by rw [hgl]; exact Nat.pos_of_ne_zero hm.dims
        have : gm.results[0]? = some gm.results[0] := List.getElem?_eq_getElem h0
        obtain ⟨k, x, -, hx', -⟩ := t2 0 _ this
        simp at hx'
      · exact vals_of_mapsTo_roto hrne hrel
    obtain ⟨t1, t2⟩ := rotate_spec a4
    intro i dir b x y hi hb hx hy
    have hil := (List.getElem?_eq_some_iff.1 hi).1
    have hge : gm.results[i]? = some (gm.results[i]'(by omega)) := List.getElem?_eq_getElem (by omega)
    obtain ⟨k, dk, c1, c2, c3⟩ := t2 i _ hge
    obtain ⟨o, -, hoe⟩ := rotoForm_eval (k3 _ (List.mem_of_getElem? hge)) c1
    have u1 := hoe _ _ ((vals_iff_get.1 hgd).2 i _ y hge hy)
    have u2 := hoe _ _ ((vals_iff_get.1 hgd').2 i _ x hge hx)
    rw [List.getElem?_map, Option.map_eq_some_iff] at c2
    obtain ⟨off, hoff, rfl⟩ := c2
    obtain ⟨e, he, heo⟩ := mapM_offset a3 k off hoff
    have hid := identityLike_get a2 k e he
    rw [Nat.zero_add] at hid
    obtain ⟨o', ho', hoe'⟩ := rotoForm_eval (b3 e (List.mem_of_getElem? he)) hid
    rw [heo] at ho'
    have := Option.some.inj ho'
    subst this
    have u3 := hoe' _ _ ((vals_iff_get.1 hrv).2 k e _ he u2)
    rw [u1] at u3
    have u4 := Option.some.inj u3
    have hal := a5 i dir _ b hi hb c3
    unfold offsetDir at hal
    split_ifs at hal with z1 z2
    · omega
    · cases hal; exact ⟨by simp, fun _ => by omega⟩
    · cases hal; exact ⟨fun _ => by omega, by simp⟩
  · simp at h

end Marco.Props
