import Verif.Spec.EquationFunctions
import Verif.Lemmas.Scheduling

/-!
# Lemmas about the functions of the equations
-/

namespace Marco.EqFn

open Marco Marco.Spec Marco.Spec.EqFn Marco.Props

variable {E V : Type} [DecidableEq E]

/-! ### Execution -/

theorem run_other (q : Equation E V) (l : List Point) (m : E → V) (e : E)
    (h : ∀ i ∈ l, q.target i ≠ e) : q.run m l e = m e := by
  induction l generalizing m with
  | nil => rfl
  | cons i l ih =>
    have : q.run m (i :: l) = q.run (q.assign m i) l := rfl
    rw [this, ih _ fun j hj => h j (List.mem_cons_of_mem _ hj)]
    exact if_neg fun he => h i List.mem_cons_self he.symm

/-- If nothing read is assigned later, the equation holds afterwards. -/
theorem run_holds (q : Equation E V) (hr : ReadsOnly q) (l : List Point) (m : E → V)
    (hi : l.Pairwise fun i j => q.target i ≠ q.target j)
    (ho : l.Pairwise fun i j => q.target j ∉ q.reads i)
    (hs : ∀ i ∈ l, q.target i ∉ q.reads i) : ∀ i ∈ l, HoldsAt q (q.run m l) i := by
  induction l generalizing m with
  | nil => simp
  | cons i l ih =>
    rw [List.pairwise_cons] at hi ho
    have hrun : q.run m (i :: l) = q.run (q.assign m i) l := rfl
    intro j hj
    rcases List.mem_cons.1 hj with rfl | hj
    · unfold HoldsAt
      rw [hrun, run_other q l _ _ fun k hk => (hi.1 k hk).symm]
      have : q.assign m j (q.target j) = q.value m j := if_pos rfl
      rw [this]
      apply hr
      intro e he
      rw [run_other q l _ e fun k hk h => ho.1 k hk (h ▸ he)]
      have hne : e ≠ q.target j := fun h => hs j List.mem_cons_self (h ▸ he)
      exact (if_neg hne).symm
    · rw [hrun]
      exact ih _ hi.2 ho.2 (fun k hk => hs k (List.mem_cons_of_mem _ hk)) j hj

/-! ### Loops -/

theorem forValues_eq (r : Range) : forValues r.b r.e = intsOf r := rfl

theorem loops_eq (b : Box) : loops b = nest (b.map fun r => (r, true)) := by
  induction b with
  | nil => rfl
  | cons r rs ih => simp [loops, nest, forValues_eq, ih]

/-- The loop that the code runs instead. -/
def actual : Dir → Range → Range × Bool
  | .any, r => (r, true)
  | .forward, r => (r, true)
  | _, r => (⟨r.b + 1, r.e + 1⟩, false)

theorem forValues_shift (d : Dir) (r : Range) :
    (forValues r.b r.e).map (shiftOne d r.b r.e) =
      if (actual d r).2 then intsOf (actual d r).1 else (intsOf (actual d r).1).reverse := by
  have fwd : ∀ d : Dir, d = .any ∨ d = .forward →
      (forValues r.b r.e).map (shiftOne d r.b r.e) = intsOf r := by
    intro d hd
    rw [forValues_eq]
    conv_rhs => rw [← List.map_id (intsOf r)]
    apply List.map_congr_left
    intro x _
    simp [shiftOne, hd]
  have bwd : ∀ d : Dir, ¬ (d = .any ∨ d = .forward) →
      (forValues r.b r.e).map (shiftOne d r.b r.e) = (intsOf ⟨r.b + 1, r.e + 1⟩).reverse := by
    intro d hd
    apply List.ext_getElem
    · simp [forValues, intsOf]
    · intro n h1 h2
      simp only [forValues, intsOf, List.length_map, List.length_range, List.length_reverse] at h1 h2
      simp only [forValues, intsOf, List.getElem_map, List.getElem_range, List.getElem_reverse,
        List.length_map, List.length_range, shiftOne, if_neg hd]
      omega
  cases d with
  | any => exact fwd _ (.inl rfl)
  | forward => exact fwd _ (.inr rfl)
  | backward => exact bwd _ (by simp)
  | unknown => exact bwd _ (by simp)

theorem function_eq {dirs : List Dir} {b : Box} (h : dirs.length = b.length) :
    (loops b).map (shift dirs b) = nest (List.zipWith actual dirs b) := by
  induction b generalizing dirs with
  | nil =>
    cases dirs with
    | nil => rfl
    | cons _ _ => simp at h
  | cons r rs ih =>
    cases dirs with
    | nil => simp at h
    | cons d ds =>
      have ih := ih (dirs := ds) (by simpa using h)
      simp only [loops, List.map_flatMap, List.map_map, List.zipWith_cons_cons]
      rw [nest.eq_def]
      simp only
      rw [← forValues_shift, ← ih, List.flatMap_map]
      congr 1
      funext x
      rw [List.map_map]
      rfl

theorem call_eq {dirs : List Dir} {ranges : List Box} (hn : ranges ≠ [])
    (h : ∀ b ∈ ranges, b.length = dirs.length) (h0 : dirs ≠ []) :
    call dirs ranges = some (ranges.flatMap fun b => nest (List.zipWith actual dirs b)) := by
  have hm : ∀ l : List Box, (∀ b ∈ l, b.length = dirs.length) →
      l.mapM (function dirs) = some (l.map fun b => nest (List.zipWith actual dirs b)) := by
    intro l
    induction l with
    | nil => intro; rfl
    | cons b l ih =>
      intro h
      have hb := h b List.mem_cons_self
      have hf : function dirs b = some (nest (List.zipWith actual dirs b)) := by
        have : ¬ b.length = 0 := by
          rw [hb]; simpa using h0
        rw [function, if_neg this, if_neg (by omega), function_eq hb.symm]
      rw [List.mapM_cons, hf, ih fun b hb => h b (List.mem_cons_of_mem _ hb)]
      rfl
  have : ranges.isEmpty = false := by simpa using hn
  rw [call, this, hm ranges h]
  simp [List.flatMap_def]

/-! ### Order -/

theorem before_irrefl (fs : List Bool) (p : Point) : ¬ Before fs p p := by
  induction fs generalizing p with
  | nil => simp [Before]
  | cons f fs ih =>
    cases p with
    | nil => simp [Before]
    | cons x xs => cases f <;> simp [Before, ih]

theorem before_asymm {fs : List Bool} {p q : Point} (h : Before fs p q) : ¬ Before fs q p := by
  induction fs generalizing p q with
  | nil => simp [Before] at h
  | cons f fs ih =>
    cases p with
    | nil => simp [Before] at h
    | cons x xs =>
      cases q with
      | nil => simp [Before] at h
      | cons y ys =>
        simp only [Before] at h ⊢
        rintro (h' | ⟨rfl, h'⟩)
        · rcases h with h | ⟨rfl, _⟩
          · cases f <;> simp at h h' <;> omega
          · cases f <;> simp at h'
        · rcases h with h | ⟨_, h⟩
          · cases f <;> simp at h
          · exact ih h h'

theorem before_flip {fs : List Bool} {p q : Point} (h : Before fs p q) :
    Before (fs.map (! ·)) q p := by
  induction fs generalizing p q with
  | nil => simp [Before] at h
  | cons f fs ih =>
    cases p with
    | nil => simp [Before] at h
    | cons x xs =>
      cases q with
      | nil => simp [Before] at h
      | cons y ys =>
        simp only [Before, List.map_cons] at h ⊢
        rcases h with h | ⟨rfl, h⟩
        · left; cases f <;> simpa using h
        · exact .inr ⟨rfl, ih h⟩

theorem nest_before (ls : List (Range × Bool)) :
    (nest ls).Pairwise fun p q => Before (ls.map Prod.snd) p q := by
  induction ls with
  | nil => simp [nest]
  | cons a ls ih =>
    obtain ⟨r, f⟩ := a
    have hs : (if f then intsOf r else (intsOf r).reverse).Pairwise
        fun x y => if f then x < y else y < x := by
      cases f
      · simp only [Bool.false_eq_true, if_false, List.pairwise_reverse]
        exact intsOf_sorted r
      · simpa using intsOf_sorted r
    simp only [nest]
    generalize (if f then intsOf r else (intsOf r).reverse) = xs at hs
    induction xs with
    | nil => simp
    | cons x xs ihx =>
      rw [List.pairwise_cons] at hs
      rw [List.flatMap_cons, List.pairwise_append]
      refine ⟨?_, ihx hs.2, ?_⟩
      · rw [List.pairwise_map]
        exact ih.imp fun h => .inr ⟨rfl, h⟩
      · intro p hp q hq
        obtain ⟨p', -, rfl⟩ := List.mem_map.1 hp
        obtain ⟨y, hy, hq⟩ := List.mem_flatMap.1 hq
        obtain ⟨q', -, rfl⟩ := List.mem_map.1 hq
        exact .inl (hs.1 y hy)

theorem actual_of_forward {dirs : List Dir} {b : Box} (hd : ∀ d ∈ dirs, d = .any ∨ d = .forward)
    (h : dirs.length = b.length) : List.zipWith actual dirs b = b.map fun r => (r, true) := by
  induction b generalizing dirs with
  | nil => simp
  | cons r rs ih =>
    cases dirs with
    | nil => simp at h
    | cons d ds =>
      simp only [List.zipWith_cons_cons, List.map_cons]
      rw [ih (fun d hd' => hd d (List.mem_cons_of_mem _ hd')) (by simpa using h)]
      rcases hd d List.mem_cons_self with rfl | rfl <;> rfl

end Marco.EqFn
