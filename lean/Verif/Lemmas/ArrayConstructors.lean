import Verif.Spec.ArrayValues
import Verif.Lemmas.Execution
import Mathlib.Tactic
import Mathlib.Algebra.BigOperators.Group.List.Basic

/-! Lemmas about the lowering of array constructors. -/

namespace Marco.Arrays
open Marco.Stmts Marco.Spec

/-- The leaves, in order. -/
def leaves : {l : Bool} → Arr l → List (Arr false)
  | _, .leaf e => [.leaf e]
  | _, .whole x sh => [.whole x sh]
  | _, .arr cs => leaves cs
  | _, .gen is v => (List.replicate (copies is) (leaves v)).flatten
  | _, .nil => []
  | _, .cons a as => leaves a ++ leaves as

theorem leaves_toList : ∀ cs : Arr true, cs.toList.flatMap (fun a => leaves a) = leaves cs
  | .nil => by simp [Arr.toList, leaves]
  | .cons a as => by simp [Arr.toList, leaves, leaves_toList as]

theorem flatMap_replicate {α β} (f : α → List β) (n : Nat) (a : α) :
    (List.replicate n a).flatMap f = (List.replicate n (f a)).flatten := by
  simp [List.flatMap]

theorem collect_eq (s1 s2 : List (Arr false)) :
    collect s1 s2 = s1.reverse.flatMap (fun a => leaves a) ++ s2 := by
  fun_induction collect s1 s2 with
  | case1 => simp
  | case2 s2 s1 cs ih => rw [ih]; simp [leaves_toList, leaves]
  | case3 s2 s1 is v ih => rw [ih]; simp [flatMap_replicate, leaves]
  | case4 s2 s1 e ih => rw [ih]; simp [leaves]
  | case5 s2 s1 x sh ih => rw [ih]; simp [leaves]

theorem collect_one (a : Arr false) : collect [a] [] = leaves a := by
  rw [collect_eq]; simp

/-- The conditions of `plain` on an index. -/
theorem index_ok {i : GenIndex}
    (h : (i.first = 1 && (i.third.isNone || i.second = 1) && 0 ≤ i.third.getD i.second) = true) :
    indexEnd i = .ok ((genValues i).length : Int) ∧ lastArg i = ((genValues i).length : Int) := by
  obtain ⟨x, f, s, t⟩ := i
  simp only [Bool.and_eq_true, decide_eq_true_eq, Bool.or_eq_true] at h
  obtain ⟨⟨rfl, h2⟩, h3⟩ := h
  have len : ∀ n : Int, 0 ≤ n → ((rangeValues 1 1 n).length : Int) = n := by
    intro n hn
    simp [rangeValues, upTo, hn]
  cases t with
  | none => simp_all [indexEnd, lastArg, genValues]
  | some e => simp_all [indexEnd, lastArg, genValues]

theorem ends_ok : ∀ is : List GenIndex,
    (is.all fun i => i.first = 1 && (i.third.isNone || i.second = 1) && 0 ≤ i.third.getD i.second) = true →
    ends is = .ok (is.map fun i => ((genValues i).length : Int))
  | [], _ => rfl
  | i :: is, h => by
    rw [List.all_cons, Bool.and_eq_true] at h
    simp [ends, (index_ok h.1).1, ends_ok is h.2, ok_bind, pure_ok]

theorem foldl_copies : ∀ (is : List GenIndex) (n : Nat),
    (is.all fun i => i.first = 1 && (i.third.isNone || i.second = 1) && 0 ≤ i.third.getD i.second) = true →
    is.foldl (fun n i => n * lastArg i) (n : Int) = ((n * (is.map fun i => (genValues i).length).prod : Nat) : Int)
  | [], n, _ => by simp
  | i :: is, n, h => by
    rw [List.all_cons, Bool.and_eq_true] at h
    rw [List.foldl_cons, (index_ok h.1).2, ← Nat.cast_mul, foldl_copies is _ h.2]
    simp [mul_assoc]

theorem copies_ok (is : List GenIndex)
    (h : (is.all fun i => i.first = 1 && (i.third.isNone || i.second = 1) && 0 ≤ i.third.getD i.second) = true) :
    copies is = (is.map fun i => (genValues i).length).prod := by
  have := foldl_copies is 1 h
  simp only [Nat.cast_one, one_mul] at this
  rw [copies, this, Int.toNat_natCast]

theorem computeShape_ok {l} {a : Arr l} {sh : List Nat} (h : HasShape a sh) : ∀ {hidden}, plain hidden a = true →
    (l = true → a.toList ≠ []) → computeShape a = .ok (sh.map fun n : Nat => (n : Int)) := by
  induction h with
  | leaf => intros; rfl
  | whole => intro _ h; simp [plain] at h
  | arr h ih =>
    intro hidden hp _
    have := ih (hidden := hidden) (by simpa only [plain] using hp) (by simp [Arr.toList])
    rw [computeShape, this]
    simp [ok_bind, pure_ok, Arr.toList]
  | gen h ih =>
    rename_i is v sh
    intro hidden hp _
    simp only [plain, Bool.and_eq_true] at hp
    have he := ends_ok is.reverse (by rw [List.all_reverse]; exact hp.1)
    rw [computeShape, he, ih hp.2 nofun]
    simp [ok_bind, pure_ok, Function.comp_def]
  | nil => intro _ _ h; simp [Arr.toList] at h
  | cons h1 h2 ih1 ih2 =>
    intro hidden hp _
    simp only [plain, Bool.and_eq_true] at hp
    simp [computeShape, ih1 hp.1 nofun]

theorem leaves_length {l} {a : Arr l} {sh : List Nat} (h : HasShape a sh) : ∀ {hidden}, plain hidden a = true →
    (leaves a).length = (if l then a.toList.length else 1) * sh.prod := by
  induction h with
  | leaf => intros; simp [leaves]
  | whole => intro _ h; simp [plain] at h
  | arr h ih =>
    intro hidden hp
    simp only [plain] at hp
    have := ih (hidden := hidden) (by simpa [plain] using hp)
    simp [leaves] at this ⊢
    rw [this]
    simp [Arr.toList]
  | gen h ih =>
    rename_i is v sh
    intro hidden hp
    simp only [plain, Bool.and_eq_true] at hp
    simp [leaves, ih hp.2, copies_ok is hp.1]
  | nil => intros; simp [leaves, Arr.toList]
  | cons h1 h2 ih1 ih2 =>
    intro hidden hp
    simp only [plain, Bool.and_eq_true] at hp
    simp [leaves, ih1 hp.1, ih2 hp.2, Arr.toList]
    ring

/-- The leaves of a plain array are expressions that read no hidden name. -/
theorem leaves_plain {l} (a : Arr l) : ∀ {hidden}, plain hidden a = true → ∀ b ∈ leaves a,
    ∃ e, b = .leaf e ∧ ∀ x ∈ reads e, x ∉ hidden := by
  induction a with
  | leaf e =>
    intro hidden h b hb
    simp only [leaves, List.mem_singleton] at hb
    exact ⟨e, hb, by simpa [plain] using h⟩
  | whole => intro _ h; simp [plain] at h
  | arr cs ih =>
    intro hidden h b hb
    exact ih (by simpa [plain] using h) b (by simpa [leaves] using hb)
  | gen is v ih =>
    intro hidden h b hb
    simp only [plain, Bool.and_eq_true] at h
    simp only [leaves, List.mem_flatten, List.mem_replicate] at hb
    obtain ⟨_, ⟨_, rfl⟩, hb⟩ := hb
    obtain ⟨e, rfl, he⟩ := ih h.2 b hb
    exact ⟨e, rfl, fun x hx hh => he x hx (by simp [hh])⟩
  | nil => intro _ _ b hb; simp [leaves] at hb
  | cons a as iha ihas =>
    intro hidden h b hb
    simp only [plain, Bool.and_eq_true] at h
    simp only [leaves, List.mem_append] at hb
    rcases hb with hb | hb
    · exact iha h.1 b hb
    · exact ihas h.2 b hb

theorem evalEx_env {σ : Store} {ρ ρ' : Iters} : ∀ e, (∀ x ∈ reads e, ρ' x = ρ x) → evalEx ρ' σ e = evalEx ρ σ e
  | .const _, _ => rfl
  | .var x, h => by simp [evalEx, h x (by simp [reads])]
  | .op f a b, h => by
    simp only [evalEx]
    rw [evalEx_env a fun x hx => h x (by simp [reads, hx]), evalEx_env b fun x hx => h x (by simp [reads, hx])]

/-- The value of a leaf that is an expression. -/
def leafValue (σ : Store) (ρ : Iters) : Arr false → Int
  | .leaf e => evalEx ρ σ e
  | _ => 0

theorem iterate_const {f : Iters → List Int} {vs : List Int} : ∀ (is : List GenIndex) (ρ : Iters),
    (∀ ρ' : Iters, (∀ x, x ∉ is.map (·.name) → ρ' x = ρ x) → f ρ' = vs) →
    iterate f is ρ = (List.replicate (is.map fun i => (genValues i).length).prod vs).flatten
  | [], ρ, h => by simp [iterate, h ρ (fun _ _ => rfl)]
  | i :: is, ρ, h => by
    have : ∀ v, iterate f is (bindIter ρ i.name v) =
        (List.replicate (is.map fun i => (genValues i).length).prod vs).flatten := by
      intro v
      refine iterate_const is _ fun ρ' hρ' => h ρ' fun x hx => ?_
      simp only [List.map_cons, List.mem_cons, not_or] at hx
      rw [hρ' x hx.2]
      simp [bindIter, hx.1]
    simp only [iterate, this, List.map_cons, List.prod_cons]
    generalize genValues i = l
    generalize (is.map fun i => (genValues i).length).prod = n
    induction l with
    | nil => simp
    | cons v l ih =>
      rw [List.flatMap_cons, ih, List.length_cons, Nat.succ_mul, Nat.add_comm (l.length * n), List.replicate_add,
        List.flatten_append]

theorem elements_plain {l} (ν σ) (a : Arr l) : ∀ {hidden}, plain hidden a = true → ∀ ρ,
    elements ν σ a ρ = (leaves a).map (leafValue σ ρ) := by
  induction a with
  | leaf e => intros; simp [elements, leaves, leafValue]
  | whole => intro _ h; simp [plain] at h
  | arr cs ih => intro hidden h ρ; simpa [elements, leaves] using ih (by simpa [plain] using h) ρ
  | gen is v ih =>
    intro hidden h ρ
    simp only [plain, Bool.and_eq_true] at h
    simp only [elements, leaves]
    rw [iterate_const (vs := (leaves v).map (leafValue σ ρ)) is.reverse ρ]
    · rw [copies_ok is h.1]
      simp [List.map_flatten, List.map_reverse, List.prod_reverse]
    · intro ρ' hρ'
      rw [ih h.2 ρ']
      refine List.map_congr_left fun b hb => ?_
      obtain ⟨e, rfl, he⟩ := leaves_plain v h.2 b hb
      refine evalEx_env e fun x hx => hρ' x ?_
      have := he x hx
      simp only [List.mem_append, not_or] at this
      simpa using this.1
  | nil => intros; simp [elements, leaves]
  | cons a as iha ihas =>
    intro hidden h ρ
    simp only [plain, Bool.and_eq_true] at h
    simp [elements, leaves, iha h.1 ρ, ihas h.2 ρ]

theorem exScoped_strip {Γ : Scope} {names : List String} : ∀ e, (∀ x ∈ reads e, x ∉ names) →
    exScoped { Γ with inds := names ++ Γ.inds } e = true → exScoped Γ e = true
  | .const _, _, _ => rfl
  | .var x, h, hs => by
    have := h x (by simp [reads])
    simpa [exScoped, this] using hs
  | .op f a b, h, hs => by
    simp only [exScoped, Bool.and_eq_true] at hs ⊢
    exact ⟨exScoped_strip a (fun x hx => h x (by simp [reads, hx])) hs.1,
      exScoped_strip b (fun x hx => h x (by simp [reads, hx])) hs.2⟩

theorem leaves_scoped {l} (a : Arr l) : ∀ {Γ : Scope} {hidden : List String}, plain hidden a = true →
    arrScoped Γ a = true → ∀ e, Arr.leaf e ∈ leaves a → exScoped Γ e = true := by
  induction a with
  | leaf e =>
    intro Γ hidden _ h e' he
    simp only [leaves, List.mem_singleton] at he
    cases he
    exact h
  | whole => intro Γ hidden h; simp [plain] at h
  | arr cs ih =>
    intro Γ hidden hp h e he
    exact ih (by simpa [plain] using hp) (by simpa [arrScoped] using h) e (by simpa [leaves] using he)
  | gen is v ih =>
    intro Γ hidden hp h e he
    simp only [plain, Bool.and_eq_true] at hp
    simp only [leaves, List.mem_flatten, List.mem_replicate] at he
    obtain ⟨_, ⟨_, rfl⟩, he⟩ := he
    have := ih hp.2 (by simpa [arrScoped] using h) e he
    obtain ⟨e', h1, h2⟩ := leaves_plain v hp.2 _ he
    cases h1
    refine exScoped_strip e (fun x hx hn => h2 x hx ?_) this
    simp only [List.mem_append]
    exact .inl hn
  | nil => intro Γ hidden _ _ e he; simp [leaves] at he
  | cons a as iha ihas =>
    intro Γ hidden hp h e he
    simp only [plain, arrScoped, Bool.and_eq_true] at hp h
    simp only [leaves, List.mem_append] at he
    rcases he with he | he
    · exact iha hp.1 h.1 e he
    · exact ihas hp.2 h.2 e he

theorem lowerLeaves_ok {Γ : Scope} : ∀ as : List (Arr false),
    (∀ b ∈ as, ∃ e, b = .leaf e ∧ exScoped Γ e = true) →
    ∃ es, lowerLeaves Γ as = .ok es ∧ es.length = as.length ∧
      ∀ ρ, Agrees Γ ρ → ∀ σ, scalarValues ρ σ es = some (as.map (leafValue σ ρ))
  | [], _ => ⟨[], rfl, rfl, fun _ _ _ => rfl⟩
  | a :: as, h => by
    obtain ⟨e, rfl, he⟩ := h a (by simp)
    obtain ⟨e', he', hv⟩ := lowerEx_ok e he
    obtain ⟨es, hes, hl, hvs⟩ := lowerLeaves_ok as fun b hb => h b (by simp [hb])
    refine ⟨.scalar e' :: es, by simp [lowerLeaves, lowerLeaf, he', hes, ok_bind, pure_ok], by simp [hl],
      fun ρ hρ σ => ?_⟩
    simp [scalarValues, hvs ρ hρ σ, hv ρ hρ σ, leafValue]

theorem prod_cast : ∀ sh : List Nat, (sh.map fun n : Nat => (n : Int)).prod = ((sh.prod : Nat) : Int)
  | [] => rfl
  | n :: sh => by rw [List.map_cons, List.prod_cons, prod_cast sh, List.prod_cons, Nat.cast_mul]

theorem lowerArray_ok {Γ : Scope} {a : Arr false} {sh : List Nat} (hs : HasShape a sh) (hp : plain [] a = true)
    (hc : arrScoped Γ a = true) (hg : ∀ e, a ≠ .leaf e) :
    ∃ t, lowerArray Γ a = .ok t ∧ ∀ ρ, Agrees Γ ρ → ∀ ν σ,
      tensorValue ρ σ t = some (sh.map fun n : Nat => (n : Int), elements ν σ a ρ) := by
  have hl : ∀ b ∈ leaves a, ∃ e, b = .leaf e ∧ exScoped Γ e = true := by
    intro b hb
    obtain ⟨e, rfl, _⟩ := leaves_plain a hp b hb
    exact ⟨e, rfl, leaves_scoped a hp hc e hb⟩
  obtain ⟨es, hes, hlen, hval⟩ := lowerLeaves_ok (leaves a) hl
  have hshape := computeShape_ok hs hp nofun
  have hn := leaves_length hs hp
  simp only [Bool.false_eq_true, if_false, one_mul] at hn
  have hfrom : ∀ ρ, Agrees Γ ρ → ∀ ν σ, tensorValue ρ σ (.fromElements (sh.map fun n : Nat => (n : Int)) es) =
      some (sh.map fun n : Nat => (n : Int), elements ν σ a ρ) := by
    intro ρ hρ ν σ
    have h0 : (∀ d ∈ sh.map fun n : Nat => (n : Int), 0 ≤ d) ∧ (sh.map fun n : Nat => (n : Int)).prod = es.length := by
      rw [prod_cast, hlen, hn]
      simp
    rw [tensorValue, if_pos h0, hval ρ hρ σ, elements_plain ν σ a hp ρ]
    rfl
  have hvalues : lowerValues Γ a = .ok es := by rw [lowerValues, collect_one, hes]
  match a, hg with
  | .leaf e, hg => exact absurd rfl (hg e)
  | .whole _ _, _ => simp [plain] at hp
  | .arr cs, _ => exact ⟨_, by simp only [lowerArray, hshape, hvalues, ok_bind, pure_ok], hfrom⟩
  | .gen is (.arr cs), _ => exact ⟨_, by simp only [lowerArray, hshape, hvalues, ok_bind, pure_ok], hfrom⟩
  | .gen is (.gen js v), _ => exact ⟨_, by simp only [lowerArray, hshape, hvalues, ok_bind, pure_ok], hfrom⟩
  | .gen is (.whole _ _), _ => simp [plain] at hp
  | .gen is (.leaf e), _ =>
    have hr : exScoped Γ e = true := by
      simp only [plain, Bool.and_eq_true, List.all_eq_true, Bool.not_eq_true', decide_eq_false_iff_not] at hp
      refine exScoped_strip e (fun x hx hn => hp.2 x hx ?_) (by simpa [arrScoped] using hc)
      simp only [List.mem_append]
      exact .inl hn
    obtain ⟨e', he', hv⟩ := lowerEx_ok e hr
    refine ⟨.broadcast (sh.map fun n : Nat => (n : Int)) (.scalar e'), by
      simp only [lowerArray, hshape, lowerLeaf, he', ok_bind, pure_ok], fun ρ hρ ν σ => ?_⟩
    rw [elements_plain ν σ _ hp ρ]
    simp only [tensorValue, prod_cast, hv ρ hρ σ]
    simp only [leaves, List.length_flatten, List.map_replicate, List.sum_replicate, List.length_singleton] at hn
    simp [leaves, leafValue, ← hn]

/-- What is lowered is in scope. -/
theorem lowerLeaves_scoped {Γ : Scope} : ∀ (as : List (Arr false)) (es : List Elem), lowerLeaves Γ as = .ok es →
    ∀ b ∈ as, arrScoped Γ b = true
  | [], _, _ => by simp
  | a :: as, es, h => by
    simp only [lowerLeaves] at h
    obtain ⟨e, he, h⟩ := bind_ok h
    obtain ⟨es', hes, h⟩ := bind_ok h
    intro b hb
    rcases List.mem_cons.mp hb with rfl | hb
    · cases b with
      | leaf e' =>
        simp only [lowerLeaf] at he
        obtain ⟨e2, he2, -⟩ := bind_ok he
        exact exScoped_of_ok _ _ he2
      | whole x sh =>
        simp only [lowerLeaf] at he
        split at he
        · next hx => simpa [arrScoped] using hx
        · cases he
      | arr _ => simp [lowerLeaf] at he
      | gen _ _ => simp [lowerLeaf] at he
    · exact lowerLeaves_scoped as es' hes b hb

theorem scoped_of_leaves {Γ : Scope} {l} (a : Arr l) (hg : generatorFree a = true) (h : ∀ b ∈ leaves a, arrScoped Γ b = true) :
    arrScoped Γ a = true := by
  induction a with
  | leaf e => exact h _ (by simp [leaves])
  | whole x sh => exact h _ (by simp [leaves])
  | arr cs ih => exact ih hg h
  | gen _ _ => simp [generatorFree] at hg
  | nil => rfl
  | cons a as iha ihs =>
    simp only [generatorFree, Bool.and_eq_true] at hg
    simp only [leaves, List.mem_append] at h
    simp only [arrScoped, Bool.and_eq_true]
    exact ⟨iha hg.1 fun b hb => h b (.inl hb), ihs hg.2 fun b hb => h b (.inr hb)⟩

end Marco.Arrays
