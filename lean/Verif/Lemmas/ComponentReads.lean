import Verif.Spec.ComponentReads
import Mathlib.Algebra.BigOperators.Group.List.Basic

/-!
# Lemmas for C116
-/

namespace Marco.CompRead
open Marco.Spec.CompRead

theorem viewIndex_choose (subs : List Sub) (idx : List Int) : viewIndex (subs.map lowerSub) idx = choose subs idx := by
  induction subs generalizing idx with
  | nil => rfl
  | cons s subs ih =>
    cases s with
    | index i => simp only [List.map_cons, lowerSub, viewIndex, choose, ih]; rfl
    | all =>
      cases idx with
      | nil => rfl
      | cons i idx => simp only [List.map_cons, lowerSub, viewIndex, choose, ih]
    | range b s =>
      cases idx with
      | nil => rfl
      | cons i idx => simp only [List.map_cons, lowerSub, viewIndex, choose, ih]; rfl

theorem viewIndex_all (n : Nat) (subs : List VSub) (idx : List Int) (h : n ≤ idx.length) :
    viewIndex (List.replicate n .all ++ subs) idx = idx.take n ++ viewIndex subs (idx.drop n) := by
  induction n generalizing idx with
  | zero => simp
  | succ n ih =>
    cases idx with
    | nil => simp at h
    | cons i idx =>
      rw [List.replicate_succ, List.cons_append]
      simp only [viewIndex, List.take_succ_cons, List.drop_succ_cons, List.cons_append, ih idx (by simpa using h)]

theorem viewIndex_fill (subs : List VSub) (n : Nat) (idx : List Int) (h : idx.length = (subs.map VSub.dims).sum + n) :
    viewIndex (subs ++ List.replicate n .all) idx = viewIndex subs idx := by
  induction subs generalizing idx with
  | nil =>
    have h' : idx.length = n := by simpa using h
    have := viewIndex_all n [] idx (by omega)
    rw [List.append_nil] at this
    rw [List.nil_append, this, List.take_of_length_le (by omega), List.drop_of_length_le (by omega)]
    simp [viewIndex]
  | cons s subs ih =>
    cases s with
    | index i =>
      simp only [List.cons_append, viewIndex]
      rw [ih idx (by simpa [VSub.dims] using h)]
    | all =>
      cases idx with
      | nil => rfl
      | cons i idx =>
        simp only [List.cons_append, viewIndex]
        rw [ih idx (by simp only [List.length_cons, List.map_cons, List.sum_cons, VSub.dims] at h; omega)]
    | range b t =>
      cases idx with
      | nil => rfl
      | cons i idx =>
        simp only [List.cons_append, viewIndex]
        rw [ih idx (by simp only [List.length_cons, List.map_cons, List.sum_cons, VSub.dims] at h; omega)]

theorem dims_sum (subs : List Sub) : ((subs.map lowerSub).map VSub.dims).sum = (subs.filter keeps).length := by
  induction subs with
  | nil => rfl
  | cons s subs ih =>
    rw [List.map_cons, List.map_cons, List.sum_cons, ih]
    cases s with
    | index i => rw [List.filter_cons_of_neg (by simp [keeps])]; simp [lowerSub, VSub.dims]
    | all => rw [List.filter_cons_of_pos rfl]; simp [lowerSub, VSub.dims]; omega
    | range b s => rw [List.filter_cons_of_pos rfl]; simp [lowerSub, VSub.dims]; omega

theorem element_append (pre : List (Nat × List Sub)) (c : Nat × List Sub) (idx : List Int)
    (h : idx.length = (pre.map free).sum + free c) :
    element (pre ++ [c]) idx = element pre (idx.take (pre.map free).sum) ++ [choose c.2 (idx.drop (pre.map free).sum)] := by
  induction pre generalizing idx with
  | nil =>
    have h' : idx.length = free c := by simpa using h
    simp only [List.nil_append, element, List.map_nil, List.sum_nil, List.drop_zero]
    rw [List.take_of_length_le (by omega)]
  | cons p pre ih =>
    simp only [List.map_cons, List.sum_cons] at h
    simp only [List.cons_append, element, List.map_cons, List.sum_cons]
    rw [ih (idx.drop (free p)) (by rw [List.length_drop]; omega)]
    rw [List.take_take, List.drop_take, List.drop_drop]
    congr 2
    · congr 2
      omega
    · congr 2
      omega

theorem all_sum (n : Nat) : ((List.replicate n VSub.all).map VSub.dims).sum = n := by
  induction n with
  | zero => rfl
  | succ n ih => rw [List.replicate_succ, List.map_cons, List.sum_cons, ih]; simp [VSub.dims]; omega

/-- A value stands for the first components of a reference. -/
def Stands (v : Val) (pre : List (Nat × List Sub)) : Prop :=
  v.rank = (pre.map free).sum ∧ ∀ idx, idx.length = v.rank → v.elem idx = element pre idx

theorem stands_component (v : Val) (pre : List (Nat × List Sub)) (c : Nat × List Sub) (last : Bool) (h : Stands v pre)
    (hl : c.2.length ≤ c.1) (hc : c.2 = [] ∨ (last = true ∧ c.2.length = c.1) ∨ (last = false ∧ v.rank = 0)) :
    Stands (lowerSubscripts (component v c.1) c.2 false last) (pre ++ [c]) := by
  obtain ⟨h1, h2⟩ := h
  obtain ⟨r, s⟩ := c
  simp only at hl hc
  have key : ∀ idx : List Int, idx.length = v.rank + free (r, s) → element (pre ++ [(r, s)]) idx =
      v.elem (idx.take v.rank) ++ [choose s (idx.drop v.rank)] := by
    intro idx hi
    rw [element_append pre (r, s) idx (by omega), ← h1, h2 _ (by rw [List.length_take]; omega)]
  by_cases hs : s = []
  · subst hs
    have hf : free (r, ([] : List Sub)) = r := by simp [free]
    simp only [lowerSubscripts, if_true]
    refine ⟨by simp [component, h1, hf], ?_⟩
    intro idx hi
    rw [key idx (by rw [hf]; exact hi)]
    rfl
  · have hc' := hc.resolve_left hs
    simp only [lowerSubscripts, if_neg hs]
    rcases hc' with ⟨rfl, he⟩ | ⟨rfl, h0⟩
    · have hsub : fullSubs false true (component v r).rank (s.map lowerSub) = List.replicate v.rank .all ++ s.map lowerSub := by
        simp [fullSubs, component, he]
      have hf : free (r, s) = (s.filter keeps).length := by simp [free, he]
      rw [hsub]
      have hr : (view (component v r) (List.replicate v.rank .all ++ s.map lowerSub)).rank = v.rank + free (r, s) := by
        simp only [view, List.map_append, List.sum_append, all_sum, dims_sum, component, List.length_append, List.length_replicate,
          List.length_map, hf]
        omega
      refine ⟨by rw [hr]; simp [h1], ?_⟩
      intro idx hi
      rw [hr] at hi
      rw [key idx hi]
      simp only [view, component]
      rw [viewIndex_all _ _ _ (by omega), viewIndex_choose, List.take_left' (by rw [List.length_take]; omega),
        List.drop_left' (by rw [List.length_take]; omega)]
    · have hsub : fullSubs false false (component v r).rank (s.map lowerSub) = s.map lowerSub := by simp [fullSubs]
      rw [hsub]
      have hr : (view (component v r) (s.map lowerSub)).rank = v.rank + free (r, s) := by
        simp only [view, dims_sum, component, List.length_map, free, h0]
        omega
      refine ⟨by rw [hr]; simp [h1], ?_⟩
      intro idx hi
      rw [hr] at hi
      rw [key idx hi]
      simp only [view, component, h0, viewIndex_choose, List.take_zero, List.drop_zero]

theorem stands_first (c : Nat × List Sub) (last : Bool) (hl : c.2.length ≤ c.1) :
    Stands (lowerSubscripts ⟨c.1, fun idx => [idx]⟩ c.2 true last) [c] := by
  obtain ⟨r, s⟩ := c
  have key : ∀ idx : List Int, idx.length = free (r, s) → element [(r, s)] idx = [choose s idx] := by
    intro idx hi
    simp only [element]
    rw [List.take_of_length_le (by omega)]
  by_cases hs : s = []
  · subst hs
    have hf : free (r, ([] : List Sub)) = r := by simp [free]
    simp only [lowerSubscripts, if_true]
    refine ⟨by simp [hf], ?_⟩
    intro idx hi
    rw [key idx (by rw [hf]; exact hi)]
    rfl
  · simp only [lowerSubscripts, if_neg hs]
    cases last with
    | true =>
      have hsub : fullSubs true true r (s.map lowerSub) = s.map lowerSub := by simp [fullSubs]
      rw [hsub]
      have hr : (view ⟨r, fun idx => [idx]⟩ (s.map lowerSub)).rank = free (r, s) := by
        simp only [view, dims_sum, List.length_map, free]
      refine ⟨by rw [hr]; simp, ?_⟩
      intro idx hi
      rw [hr] at hi
      rw [key idx hi]
      simp only [view, viewIndex_choose]
    | false =>
      have hsub : fullSubs true false r (s.map lowerSub) = s.map lowerSub ++ List.replicate (r - s.length) .all := by
        simp [fullSubs]
      rw [hsub]
      have hl' : s.length ≤ r := hl
      have hr : (view ⟨r, fun idx => [idx]⟩ (s.map lowerSub ++ List.replicate (r - s.length) .all)).rank = free (r, s) := by
        simp only [view, List.map_append, List.sum_append, all_sum, dims_sum, List.length_append, List.length_replicate,
          List.length_map, free]
        omega
      refine ⟨by rw [hr]; simp, ?_⟩
      intro idx hi
      rw [hr] at hi
      rw [key idx hi]
      simp only [view]
      rw [viewIndex_fill _ _ _ (by rw [dims_sum, hi]; rfl), viewIndex_choose]

end Marco.CompRead
