import Verif.Lemmas.Box
import Verif.Props.C05_Orders
import Mathlib.Data.List.Pairwise

/-!
# C01: iterating a box visits every point exactly once, in order
-/

namespace Marco.Props
open Marco Spec Box

/-! ## Helpers: reference enumeration -/

/-- The integers `a, a+1, …, e-1`. -/
def intsFrom (a e : Int) : List Int := (List.range (e - a).toNat).map (fun (i : Nat) => a + (i : Int))

theorem mem_intsFrom {a e x : Int} : x ∈ intsFrom a e ↔ a ≤ x ∧ x < e := by
  simp only [intsFrom, List.mem_map, List.mem_range]
  constructor
  · rintro ⟨i, hi, rfl⟩; omega
  · rintro ⟨h1, h2⟩; exact ⟨(x - a).toNat, by omega, by omega⟩

theorem intsFrom_cons {a e : Int} (h : a < e) : intsFrom a e = a :: intsFrom (a + 1) e := by
  unfold intsFrom
  have : (e - a).toNat = (e - (a + 1)).toNat + 1 := by omega
  rw [this, List.range_succ_eq_map]
  simp only [List.map_cons, List.map_map, Nat.cast_zero, add_zero, List.cons.injEq, true_and]
  apply List.map_congr_left
  intro i _
  simp only [Function.comp, Nat.succ_eq_add_one]
  push_cast; omega

theorem intsFrom_nil {a e : Int} (h : e ≤ a) : intsFrom a e = [] := by
  unfold intsFrom
  have : (e - a).toNat = 0 := by omega
  simp [this]

theorem intsFrom_sorted (a e : Int) : (intsFrom a e).Pairwise (· < ·) := by
  unfold intsFrom
  rw [List.pairwise_map]
  exact List.pairwise_lt_range.imp (by intro a b h; omega)

/-- All the points of a box in lexicographic order. -/
def enum : Box → List Point
  | [] => [[]]
  | r :: rs => (intsFrom r.b r.e).flatMap (fun x => (enum rs).map (x :: ·))

/-- The points strictly after `p`. -/
def after : Box → Point → List Point
  | r :: rs, c :: cs => (after rs cs).map (c :: ·) ++
      (intsFrom (c + 1) r.e).flatMap (fun x => (enum rs).map (x :: ·))
  | _, _ => []

theorem mem_enum {b : Box} {p : Point} : p ∈ enum b ↔ InB p b := by
  induction b generalizing p with
  | nil => simp [enum, inB_nil]
  | cons r rs ih =>
    simp only [enum, List.mem_flatMap, mem_intsFrom, List.mem_map, ih, inB_cons, InR]
    constructor
    · rintro ⟨x, hx, q, hq, rfl⟩; exact ⟨x, q, rfl, hx, hq⟩
    · rintro ⟨x, q, rfl, hx, hq⟩; exact ⟨x, hx, q, hq, rfl⟩

theorem flatMap_sorted (b : Box) (l : List Int) (hl : l.Pairwise (· < ·))
    (hb : (enum b).Pairwise LexLt) :
    (l.flatMap (fun x => (enum b).map (x :: ·))).Pairwise LexLt := by
  induction l with
  | nil => simp
  | cons a as ih =>
    rw [List.flatMap_cons, List.pairwise_append]
    rw [List.pairwise_cons] at hl
    refine ⟨?_, ih hl.2, ?_⟩
    · rw [List.pairwise_map]
      exact hb.imp (by intro p q h; simp [LexLt, h])
    · intro p hp q hq
      obtain ⟨p', _, rfl⟩ := List.mem_map.1 hp
      obtain ⟨x, hx, hq⟩ := List.mem_flatMap.1 hq
      obtain ⟨q', _, rfl⟩ := List.mem_map.1 hq
      simp [LexLt, hl.1 x hx]

theorem enum_sorted (b : Box) : (enum b).Pairwise LexLt := by
  induction b with
  | nil => simp [enum]
  | cons r rs ih => exact flatMap_sorted rs _ (intsFrom_sorted _ _) ih

theorem foldl_size (b : Box) (a : Nat) :
    b.foldl (fun acc r => acc * (r.e - r.b).toNat) a = a * b.size := by
  induction b generalizing a with
  | nil => simp [Box.size]
  | cons r rs ih =>
    have h2 := ih (1 * (r.e - r.b).toNat)
    rw [List.foldl_cons, ih]
    have h3 : Box.size (r :: rs) = (r.e - r.b).toNat * Box.size rs := by
      rw [Nat.one_mul] at h2
      rw [← h2]; simp [Box.size]
    rw [h3, Nat.mul_assoc]

theorem size_cons (r : Range) (rs : Box) : Box.size (r :: rs) = (r.e - r.b).toNat * Box.size rs := by
  rw [Box.size, List.foldl_cons, foldl_size, Nat.one_mul]

theorem length_flatMap_const {α : Type} (l : List α) (m : List Point) (f : α → Point → Point) :
    (l.flatMap (fun x => m.map (f x))).length = l.length * m.length := by
  induction l with
  | nil => simp
  | cons a as ih => simp [List.flatMap_cons, ih, Nat.add_mul, Nat.add_comm]

theorem enum_length (b : Box) : (enum b).length = b.size := by
  induction b with
  | nil => simp [enum, Box.size]
  | cons r rs ih =>
    rw [size_cons, enum, length_flatMap_const, ih]
    simp [intsFrom]

/-! ## Helpers: the odometer step -/

theorem enum_eq_begin_after : ∀ (b : Box), (∀ r ∈ b, r.Valid) →
    enum b = b.map Range.b :: after b (b.map Range.b)
  | [], _ => by simp [enum, after]
  | r :: rs, h => by
    have ih := enum_eq_begin_after rs (fun s hs => h s (by simp [hs]))
    have hr : r.b < r.e := h r (by simp)
    simp only [enum, List.map_cons, after, intsFrom_cons hr, List.flatMap_cons]
    rw [← List.cons_append]
    congr 1
    rw [ih]; rfl

theorem inB_begin : ∀ (b : Box), (∀ r ∈ b, r.Valid) → InB (b.map Range.b) b
  | [], _ => by simp [inB_nil]
  | r :: rs, h => by
    have ih := inB_begin rs (fun s hs => h s (by simp [hs]))
    have hr : r.b < r.e := h r (by simp)
    simp [ih, InR, hr]

/-- The result of `findIndex` and what follows in the enumeration. -/
theorem findIndex_spec : ∀ (b : Box) (p : Point), (∀ r ∈ b, r.Valid) → InB p b →
    (∀ cur, findIndex b p = (none, cur) → after b p = [] ∧ cur = b.map Range.e) ∧
    (∀ k cur, findIndex b p = (some k, cur) →
      k < b.length ∧ cur.length = b.length ∧
      cur.take k = p.take k ∧
      InB (cur.take (k + 1) ++ (b.drop (k + 1)).map Range.b) b ∧
      after b p = (cur.take (k + 1) ++ (b.drop (k + 1)).map Range.b) ::
        after b (cur.take (k + 1) ++ (b.drop (k + 1)).map Range.b))
  | [], p, _, hp => by
    rw [inB_nil] at hp; subst hp
    constructor
    · intro cur h; simp [findIndex] at h; simp [after, h]
    · intro k cur h; simp [findIndex] at h
  | r :: rs, p, hv, hp => by
    obtain ⟨c, cs, rfl, hc, hcs⟩ := (inB_cons _ _ _).1 hp
    have hv' : ∀ s ∈ rs, s.Valid := fun s hs => hv s (by simp [hs])
    have ih := findIndex_spec rs cs hv' hcs
    have hc1 := hc.1
    have hc2 := hc.2
    cases hf : findIndex rs cs with
    | mk o cur' =>
      cases o with
      | some k =>
        obtain ⟨h1, h2, h2', h3, h4⟩ := ih.2 k cur' hf
        constructor
        · intro cur h; simp [findIndex, hf] at h
        · intro k' cur h
          simp only [findIndex, hf, Prod.mk.injEq, Option.some.injEq] at h
          obtain ⟨rfl, rfl⟩ := h
          refine ⟨by simp; omega, by simp; omega, ?_, ?_, ?_⟩
          · simp [h2']
          · simpa [hc] using h3
          · simp only [after, h4, List.take_succ_cons, List.drop_succ_cons, List.cons_append,
              List.map_cons]
      | none =>
        obtain ⟨h1, rfl⟩ := ih.1 cur' hf
        have hcl : rs.length = cs.length := inB_length hcs
        constructor
        · intro cur h
          simp only [findIndex, hf] at h
          by_cases hm : min (c + 1) r.e = r.e
          · simp [hm] at h
            subst h
            refine ⟨?_, by simp⟩
            rw [after, h1, intsFrom_nil (by omega)]; simp
          · simp [hm] at h
        · intro k cur h
          simp only [findIndex, hf] at h
          by_cases hm : min (c + 1) r.e = r.e
          · simp [hm] at h
          · simp [hm] at h
            obtain ⟨rfl, rfl⟩ := h
            have hce : c + 1 < r.e := by omega
            have hmin : min (c + 1) r.e = c + 1 := by omega
            have hb := inB_begin rs hv'
            refine ⟨by simp, by simp, by simp, ?_, ?_⟩
            · simp [hmin, InR, hce, hb]; omega
            · simp only [after, h1, hmin, List.map_nil, List.nil_append, List.take_succ_cons,
                List.take_zero, List.drop_succ_cons, List.drop_zero, List.cons_append,
                intsFrom_cons hce, List.flatMap_cons]
              rw [enum_eq_begin_after rs hv']
              simp

theorem inB_ne_end {b : Box} {p : Point} (hb : b ≠ []) (hp : InB p b) : p ≠ b.map Range.e := by
  cases b with
  | nil => exact absurd rfl hb
  | cons r rs =>
    obtain ⟨x, xs, rfl, h, _⟩ := (inB_cons _ _ _).1 hp
    intro hc
    simp at hc
    have := h.2
    omega

theorem emits_after (b : Box) (hb : b.Valid) : ∀ (n : Nat) (p : Point), (after b p).length = n →
    InB p b → Emits b ⟨p, p⟩ (p :: after b p) := by
  intro n
  induction n with
  | zero =>
    intro p hl hp
    have h0 : after b p = [] := List.length_eq_zero_iff.1 hl
    rw [h0]
    refine Emits.step (st := ⟨p, p⟩) (inB_ne_end hb.1 hp) ?_
    obtain ⟨h1, h2⟩ := findIndex_spec b p hb.2 hp
    cases hf : findIndex b p with
    | mk o cur =>
      cases o with
      | none =>
        apply Emits.done
        simp only [fetchNext, hf]
        exact (h1 cur hf).2
      | some k =>
        have := (h2 k cur hf).2.2.2.2
        rw [h0] at this
        cases this
  | succ n ih =>
    intro p hl hp
    refine Emits.step (st := ⟨p, p⟩) (inB_ne_end hb.1 hp) ?_
    obtain ⟨h1, h2⟩ := findIndex_spec b p hb.2 hp
    cases hf : findIndex b p with
    | mk o cur =>
      cases o with
      | none =>
        have := (h1 cur hf).1
        rw [this] at hl; simp at hl
      | some k =>
        obtain ⟨h3, h4, h5, h6, h7⟩ := h2 k cur hf
        rw [h7]
        have hst : fetchNext b ⟨p, p⟩ =
            ⟨cur.take (k + 1) ++ (b.drop (k + 1)).map Range.b,
             cur.take (k + 1) ++ (b.drop (k + 1)).map Range.b⟩ := by
          simp only [fetchNext, hf, Iter.mk.injEq, true_and]
          rw [← h5, ← List.take_add]
        rw [hst]
        apply ih _ _ h6
        rw [h7] at hl
        simpa using hl

/-- The loop is deterministic: it emits at most one list. -/
theorem C01_emits_unique {b : Box} {st : Iter} {l m : List Point} (h1 : Emits b st l)
    (h2 : Emits b st m) : l = m := by
  induction h1 generalizing m with
  | done h =>
    cases h2 with
    | done => rfl
    | step h' _ => exact absurd h h'
  | step h _ ih =>
    cases h2 with
    | done h' => exact absurd h' h
    | step _ h2 => rw [ih h2]

/-- C01: the range-for loop over a well-formed box terminates; the list of points it visits is
strictly increasing lexicographically (so without repetition), contains exactly the points of
the box and has `size()` elements. -/
theorem C01_iteration (b : Box) (hb : b.Valid) :
    ∃ l, Emits b (iterBegin b) l ∧ l.Pairwise LexLt ∧ l.Nodup ∧ (∀ p, p ∈ l ↔ InB p b) ∧
      l.length = b.size := by
  refine ⟨enum b, ?_, enum_sorted b, ?_, fun p => mem_enum, enum_length b⟩
  · rw [enum_eq_begin_after b hb.2]
    exact emits_after b hb _ _ rfl (inB_begin b hb.2)
  · refine (enum_sorted b).imp ?_
    rintro p q h rfl
    exact lexLt_irrefl _ h

-- Concrete case: the hypothesis is met and the loop visits four points.
example : Box.Valid [⟨0, 2⟩, ⟨5, 7⟩] ∧
    fetchNext [⟨0, 2⟩, ⟨5, 7⟩] ⟨[0, 6], [0, 6]⟩ = ⟨[1, 5], [1, 5]⟩ ∧
    fetchNext [⟨0, 2⟩, ⟨5, 7⟩] ⟨[1, 6], [1, 6]⟩ = ⟨[2, 7], [1, 6]⟩ := by decide

end Marco.Props
