import Mathlib.Data.List.Forall2
import Verif.Lemmas.ExternalCalls

/-!
# C118: an external function receives the arguments of its call, and what it writes comes back
-/

namespace Marco.Props
open Marco.ExtCall Marco.Spec.ExtCall Marco.ArrMem Marco.Spec.ArrMem

/-- What an external function must receive for an argument: the value, or a pointer to the elements by rows followed by the
sizes. -/
def C118_represents (mem : Nat → Int → Int) : Arg → List CArg → Prop
  | .scalar _ v, l => l = [.val v]
  | .array _ b m, l => ∃ c, l = .ptr c :: (m.dims.map Prod.fst).map .val ∧
      ∀ idx, Within (m.dims.map Prod.fst) idx → c (place (m.dims.map Prod.fst) idx) = mem b (m.addr idx)

/-- The meaning of a value of C: for a Boolean all but 0 is true. -/
def C118_meaning : Ty → Int → Int
  | .i1, c => if c = 0 then 0 else 1
  | _, c => c

/-- The function receives the arguments; afterwards the elements of the arrays have the values that it has left behind the
pointers, its result is that of the call, and the other buffers are unchanged. `R` limits the values that the function
returns. -/
def C118_claim (w : Widths) (R : Ty → Int → Prop) (args : List Arg) (mem : Nat → Int → Int) : Prop :=
  ∀ garbage, ∃ ls : List (List CArg), List.Forall₂ (C118_represents mem) args ls ∧
    ∀ F t, R t (F ls.flatten).2 →
      (call w garbage F t args mem).2 = C118_meaning t (F ls.flatten).2 ∧
      (∀ (k : Nat) u b m, args[k]? = some (.array u b m) → ∀ idx, Within (m.dims.map Prod.fst) idx →
        R u ((F ls.flatten).1 k (place (m.dims.map Prod.fst) idx)) →
        (call w garbage F t args mem).1 b (m.addr idx) =
          C118_meaning u ((F ls.flatten).1 k (place (m.dims.map Prod.fst) idx))) ∧
      ∀ b, (∀ u m, Arg.array u b m ∉ args) → (call w garbage F t args mem).1 b = mem b

/-- The arrays are in different buffers, and each has different cells for its elements. -/
def C118_arrays (args : List Arg) : Prop :=
  (args.filterMap Arg.buf?).Nodup ∧ ∀ u b m, Arg.array u b m ∈ args → Proper m

/-- The full claim, for an `int` of 32 bits and pointers of 64 bits. -/
def C118_full : Prop :=
  ∀ args mem, C118_arrays args → C118_claim ⟨32, 32, 64⟩ (fun _ _ => True) args mem

/-- All the values passed can be represented in the types of C. -/
def C118_fits (w : Widths) (args : List Arg) (mem : Nat → Int → Int) : Prop :=
  (∀ u v, Arg.scalar u v ∈ args → Holds w u v) ∧
  ∀ u b m, Arg.array u b m ∈ args → (∀ n ∈ m.dims.map Prod.fst, Holds w .index n) ∧
    ∀ idx, Within (m.dims.map Prod.fst) idx → Holds w u (mem b (m.addr idx))

/-- The widths of the usual targets. -/
def C118_widths (w : Widths) : Prop := 0 < w.integer ∧ w.integer ≤ 64 ∧ 0 < w.index ∧ w.index ≤ 64

theorem C118_bmod (n : Nat) (hn : 0 < n) (v : Int) (h1 : -(2 ^ (n - 1)) ≤ v) (h2 : v < 2 ^ (n - 1)) :
    Int.bmod v (2 ^ n) = v := by
  obtain ⟨k, rfl⟩ : ∃ k, n = k + 1 := ⟨n - 1, by omega⟩
  simp only [Nat.add_sub_cancel] at h1 h2
  have hp : ((2 ^ (k + 1) : Nat) : Int) = 2 * 2 ^ k := by push_cast; ring
  refine Int.bmod_eq_of_le ?_ ?_ <;> rw [hp] <;> omega

theorem C118_toC (w : Widths) (hw : C118_widths w) (t : Ty) (v : Int) (h : Holds w t v) : toC w t v = v := by
  obtain ⟨h1, -, h3, -⟩ := hw
  cases t with
  | i1 => rfl
  | f64 => rfl
  | i64 =>
    simp only [toC]
    split
    · exact C118_bmod _ h1 _ h.1 h.2
    · rfl
  | index =>
    simp only [toC]
    split
    · exact C118_bmod _ h3 _ h.1 h.2
    · rfl

theorem C118_fromC (w : Widths) (hw : C118_widths w) (t : Ty) (c : Int) (h : t = .i1 → c = 0 ∨ c = 1) :
    fromC w t c = C118_meaning t c := by
  obtain ⟨-, h2, -, h4⟩ := hw
  cases t with
  | i1 => rcases h rfl with rfl | rfl <;> rfl
  | f64 => rfl
  | i64 => simp only [fromC, C118_meaning]; rw [if_neg (by omega)]
  | index => simp only [fromC, C118_meaning]; rw [if_neg (by omega)]

theorem C118_same (t : Ty) (c : Int) (h : t = .i1 → c = 0 ∨ c = 1) : C118_meaning t c = c := by
  cases t with
  | i1 => rcases h rfl with rfl | rfl <;> rfl
  | _ => rfl

/-- **C118, partial.** For all widths of `int` and of the pointers up to 64, all numbers of arguments, all arrays and all external
functions: the claim holds if the values fit in the types of C, the arrays whose elements need no conversion fill their buffers
by rows, and the function returns 0 or 1 for each Boolean. What is missing: the other values, slices of arrays, and other values
for true. -/
theorem C118_call_partial (w : Widths) (hw : C118_widths w) (args : List Arg) (mem : Nat → Int → Int)
    (ha : C118_arrays args) (hf : C118_fits w args mem)
    (hs : ∀ u b m, Arg.array u b m ∈ args → sameTy w u = false ∨ Plain m) :
    C118_claim w (fun t c => t = .i1 → c = 0 ∨ c = 1) args mem := by
  intro garbage
  refine ⟨args.map (pass w garbage mem), ?_, ?_⟩
  · rw [List.forall₂_map_right_iff, List.forall₂_same]
    intro a hmem
    cases a with
    | scalar u v =>
      simp only [C118_represents, pass]
      split
      · rfl
      · rw [C118_toC w hw u v (hf.1 u v hmem)]
    | array u b m =>
      obtain ⟨hn, he⟩ := hf.2 u b m hmem
      have hp := (ha.2 u b m hmem).1
      refine ⟨pointer w garbage (mem b) u m, ?_, ?_⟩
      · simp only [pass, ← sizes_cast m hp, List.map_map]
        congr 1
        refine List.map_congr_left ?_
        intro n hnm
        have : Holds w .index (n : Int) := by
          refine hn _ ?_
          rw [← sizes_cast m hp]
          exact List.mem_map_of_mem (f := fun (n : Nat) => (n : Int)) hnm
        simp only [Function.comp, C118_toC w hw .index n this]
      · intro idx hi
        rw [pointer_spec w garbage (mem b) u m hp (hs u b m hmem) idx hi]
        split
        · rfl
        · exact C118_toC w hw u _ (he idx hi)
  · intro F t hR
    have hflat : (args.map (pass w garbage mem)).flatten = args.flatMap (pass w garbage mem) := by
      rw [List.flatMap_def]
    rw [hflat] at hR ⊢
    refine ⟨?_, ?_, ?_⟩
    · simp only [call]
      split
      · exact (C118_same t _ hR).symm
      · exact C118_fromC w hw t _ hR
    · intro k u b m hk idx hi hR'
      have hmem := List.mem_of_getElem? hk
      simp only [call]
      rw [backAll_array w _ 0 k args mem ha.1 u b m hk, Nat.zero_add,
        back_spec w u m _ (mem b) (ha.2 u b m hmem) (hs u b m hmem) idx hi]
      split
      · exact (C118_same u _ hR').symm
      · exact C118_fromC w hw u _ hR'
    · intro b hb
      refine backAll_other w _ 0 args mem b ?_
      rw [List.mem_filterMap]
      rintro ⟨a, ha, he⟩
      cases a with
      | scalar => simp [Arg.buf?] at he
      | array u b' m =>
        simp only [Arg.buf?, Option.some.injEq] at he
        subst he
        exact hb u m ha

/-- The cells of a buffer that are not elements of a converted array are not written. -/
theorem C118_cells (w : Widths) (t : Ty) (m : MemRef) (new mem : Int → Int) (hp : Proper m) (hs : sameTy w t = false) (a : Int)
    (h : ∀ idx, Within (m.dims.map Prod.fst) idx → m.addr idx ≠ a) : back w t m new mem a = mem a := by
  unfold back
  rw [hs]
  have hsz := sizes_cast m hp.1
  exact (copyLoop_spec (fromC w t) (sizes m) (rows (sizes m)) m new mem (by rw [hsz]; exact hp.2)).2 a (by rw [hsz]; exact h)

namespace C118_Sample

/-- A vector of `n` elements from the cell `o` on. -/
def vec (o n : Int) : MemRef := ⟨o, [(n, 1)]⟩

theorem vec_proper (o n : Int) (h : 0 ≤ n) : Proper (vec o n) := by
  refine ⟨by simp [vec, h], ?_⟩
  rintro i j ⟨hi, -⟩ ⟨hj, -⟩ he
  match i, j, hi, hj with
  | [a], [b], _, _ => simpa [MemRef.addr, dot, vec] using he

theorem vec_plain (n : Int) : Plain (vec 0 n) := by
  rintro idx ⟨hi, -⟩
  match idx, hi with
  | [a], _ => simp [MemRef.addr, dot, vec, place]

theorem vec_first (o n : Int) (h : 0 < n) : Within ((vec o n).dims.map Prod.fst) [0] := by
  refine ⟨rfl, ?_⟩
  intro k i m hi hm
  match k with
  | 0 => simp [vec] at hi hm; omega
  | k + 1 => simp at hi

/-- The hypotheses of `C118_call_partial`: a slice of Integers, a whole array of Reals, and an Integer. -/
example : C118_widths ⟨32, 32, 64⟩ ∧
    C118_arrays [.array .i64 0 (vec 3 2), .array .f64 1 (vec 0 4), .scalar .i64 7] ∧
    C118_fits ⟨32, 32, 64⟩ [.array .i64 0 (vec 3 2), .array .f64 1 (vec 0 4), .scalar .i64 7] (fun _ _ => 5) ∧
    ∀ u b m, Arg.array u b m ∈ [Arg.array .i64 0 (vec 3 2), .array .f64 1 (vec 0 4), .scalar .i64 7] →
      sameTy ⟨32, 32, 64⟩ u = false ∨ Plain m := by
  refine ⟨by unfold C118_widths; decide, ⟨by decide, ?_⟩, ⟨?_, ?_⟩, ?_⟩
  · intro u b m h
    simp only [List.mem_cons, Arg.array.injEq, reduceCtorEq, List.not_mem_nil, or_false] at h
    rcases h with ⟨rfl, rfl, rfl⟩ | ⟨rfl, rfl, rfl⟩
    · exact vec_proper _ _ (by decide)
    · exact vec_proper _ _ (by decide)
  · intro u v h
    simp only [List.mem_cons, Arg.scalar.injEq, reduceCtorEq, List.not_mem_nil, or_false, false_or] at h
    obtain ⟨rfl, rfl⟩ := h
    simp [Holds]
  · intro u b m h
    simp only [List.mem_cons, Arg.array.injEq, reduceCtorEq, List.not_mem_nil, or_false] at h
    rcases h with ⟨rfl, rfl, rfl⟩ | ⟨rfl, rfl, rfl⟩ <;> simp [vec, Holds]
  · intro u b m h
    simp only [List.mem_cons, Arg.array.injEq, reduceCtorEq, List.not_mem_nil, or_false] at h
    rcases h with ⟨rfl, rfl, rfl⟩ | ⟨rfl, rfl, rfl⟩
    · exact .inl rfl
    · exact .inr (vec_plain _)

/-- The function that leaves the memory behind its only pointer as it is. -/
def leave (l : List CArg) : (Nat → Int → Int) × Int :=
  match l with
  | .ptr c :: _ => (fun _ => c, 0)
  | _ => (fun _ _ => 0, 0)

end C118_Sample

/-- For all Integers that do not fit in 32 bits: an array passed to an external function that leaves it as it is has another
value after the call. -/
theorem C118_truncated (v : Int) (h : ¬ (-(2 ^ 31) ≤ v ∧ v < 2 ^ 31)) (garbage : Int → Int) :
    (call ⟨32, 32, 64⟩ garbage C118_Sample.leave .f64 [.array .i64 0 (C118_Sample.vec 0 1)] fun _ _ => v).1 0 0 ≠ v := by
  have hi := C118_Sample.vec_first 0 1 (by decide)
  have hp := C118_Sample.vec_proper 0 1 (by decide)
  have e1 : (call ⟨32, 32, 64⟩ garbage C118_Sample.leave .f64 [.array .i64 0 (C118_Sample.vec 0 1)] fun _ _ => v).1 0 0 =
      back ⟨32, 32, 64⟩ .i64 (C118_Sample.vec 0 1)
        (pointer ⟨32, 32, 64⟩ garbage (fun _ => v) .i64 (C118_Sample.vec 0 1)) (fun _ => v)
        ((C118_Sample.vec 0 1).addr [0]) := rfl
  rw [e1, back_spec _ _ _ _ _ hp (.inl rfl) [0] hi, pointer_spec _ _ _ _ _ hp.1 (.inl rfl) [0] hi]
  simp only [sameTy, fromC, toC, show ((32 : Nat) == 64) = false from rfl, Bool.false_eq_true, if_false,
    show ((32 : Nat) < 64) = True by simp, if_true, show ((64 : Nat) < 32) = False by simp]
  intro he
  have h1 := Int.le_bmod (x := v) (m := 2 ^ 32) (by decide)
  have h2 := Int.bmod_lt (x := v) (m := 2 ^ 32) (by decide)
  rw [he] at h1 h2
  norm_num at h1 h2 h
  omega

/-- For all slices of arrays of Reals that do not begin at the beginning of their buffer: the pointer is
that of the buffer, and what the function leaves behind it does not become the slice. -/
theorem C118_slice (o n : Int) (h : o ≠ 0) (hn : 0 < n) :
    C118_arrays [.array .f64 0 (C118_Sample.vec o n)] ∧
      ¬ C118_claim ⟨32, 32, 64⟩ (fun t c => t = .i1 → c = 0 ∨ c = 1) [.array .f64 0 (C118_Sample.vec o n)] fun _ a => a := by
  refine ⟨⟨by simp [Arg.buf?], ?_⟩, ?_⟩
  · intro u b m hm
    simp only [List.mem_singleton, Arg.array.injEq] at hm
    obtain ⟨rfl, rfl, rfl⟩ := hm
    exact C118_Sample.vec_proper o n hn.le
  · intro hc
    obtain ⟨ls, -, hF⟩ := hc fun _ => 0
    have hi := C118_Sample.vec_first o n hn
    have hk := (hF (fun _ => (fun _ a => a, 0)) .f64 (by simp)).2.1 0 .f64 0 (C118_Sample.vec o n) rfl [0] hi (by simp)
    simp [call, backAll, back, sameTy, C118_Sample.vec, MemRef.addr, dot, place, C118_meaning] at hk
    exact h hk

/-- And the function does not receive the first element of the slice. -/
theorem C118_slice_received (garbage mem : Int → Int) (o n : Int) (h : mem o ≠ mem 0) :
    pointer ⟨32, 32, 64⟩ garbage mem .f64 (C118_Sample.vec o n) (place ((C118_Sample.vec o n).dims.map Prod.fst) [0]) ≠
      mem ((C118_Sample.vec o n).addr [0]) := by
  simpa [pointer, sameTy, C118_Sample.vec, place, MemRef.addr, dot] using fun he : mem 0 = mem o => h he.symm

/-- A function that returns 2 for a Boolean: true in C, false after the call. -/
theorem C118_boolean (garbage : Int → Int) (mem : Nat → Int → Int) :
    (call ⟨32, 32, 64⟩ garbage (fun _ => (fun _ _ => 0, 2)) .i1 [] mem).2 = 0 ∧ C118_meaning .i1 2 = 1 := ⟨rfl, rfl⟩

/-- All languages are treated as C. -/
theorem C118_language (language : String) : accepted language = true := rfl

/-- A function that is declared already is called with the types of the first call, whatever the arguments are. -/
theorem C118_declared (decls : List (String × List Ty)) (name : String) (ts ts' : List Ty) (h : decls.lookup name = none) :
    (declare (declare decls name ts).2 name ts').1 = ts := by
  unfold declare
  simp [h]

example : (declare (declare [] "f" [.f64]).2 "f" [.f64, .i64]).1 = [.f64] := by decide

/-- The full claim is false. -/
theorem C118_full_false : ¬ C118_full := by
  intro h
  obtain ⟨ls, -, hF⟩ := h [] (fun _ _ => 0) ⟨by simp, by simp⟩ fun _ => 0
  have := (hF (fun _ => (fun _ _ => 0, 2)) .i1 trivial).1
  exact absurd this (by decide)

end Marco.Props
