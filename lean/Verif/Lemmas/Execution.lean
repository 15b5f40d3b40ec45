import Verif.Spec.Execution
import Mathlib.Tactic

/-! Lemmas about the execution of statements and of their lowering. -/

namespace Marco.Stmts
open Marco.Spec

theorem ok_bind {α β} (a : α) (f : α → Low β) : (Low.ok a >>= f) = f a := rfl
theorem pure_ok {α} (a : α) : (pure a : Low α) = .ok a := rfl

/-- The iteration variables in scope are those with a value. -/
def Agrees (Γ : Scope) (ρ : Iters) : Prop := ∀ x, x ∈ Γ.inds ↔ (ρ x).isSome

theorem agrees_bind {Γ ρ} (h : Agrees Γ ρ) (x v) :
    Agrees { Γ with inds := x :: Γ.inds } (bindIter ρ x v) := by
  intro y
  by_cases hy : y = x
  · simp [bindIter, hy]
  · simp [bindIter, hy, h y]

theorem lowerEx_ok {Γ} : ∀ e, exScoped Γ e = true →
    ∃ e', lowerEx Γ e = .ok e' ∧ ∀ ρ, Agrees Γ ρ → ∀ σ, evalIr ρ σ e' = evalEx ρ σ e
  | .const n, _ => ⟨.const n, rfl, fun _ _ _ => rfl⟩
  | .var x, h => by
    by_cases hx : x ∈ Γ.inds
    · refine ⟨.ind x, by simp [lowerEx, lowerVar, hx], fun ρ hρ σ => ?_⟩
      have := (hρ x).1 hx
      obtain ⟨v, hv⟩ := Option.isSome_iff_exists.1 this
      simp [evalIr, evalEx, hv]
    · have hv : x ∈ Γ.vars := by simpa [exScoped, hx] using h
      refine ⟨.get x, by simp [lowerEx, lowerVar, hx, hv], fun ρ hρ σ => ?_⟩
      have : ρ x = none := by
        have := mt (hρ x).2 hx
        simpa using this
      simp [evalIr, evalEx, this]
  | .op f a b, h => by
    simp only [exScoped, Bool.and_eq_true] at h
    obtain ⟨a', ha, hae⟩ := lowerEx_ok a h.1
    obtain ⟨b', hb, hbe⟩ := lowerEx_ok b h.2
    refine ⟨.op f a' b', by simp [lowerEx, ha, hb, ok_bind, pure_ok], fun ρ hρ σ => ?_⟩
    simp [evalIr, evalEx, hae ρ hρ σ, hbe ρ hρ σ]

/-- What a code may assign. -/
def writesC : Code → List String
  | .src s => writes s
  | .loops _ b => writes b
  | .iter _ _ _ b => writes b

theorem frame {ρ c σ o τ} (h : Exec ρ c σ o τ) : ∀ x, x ∉ writesC c → τ x = σ x := by
  induction h <;> intro x hx <;> simp_all [writesC, writes, assignTo]

theorem eval_congr {ρ σ τ} : ∀ e, (∀ x ∈ reads e, τ x = σ x) → evalEx ρ τ e = evalEx ρ σ e
  | .const _, _ => rfl
  | .var x, h => by simp [evalEx, h x (by simp [reads])]
  | .op f a b, h => by
    simp only [evalEx]
    rw [eval_congr a fun x hx => h x (by simp [reads, hx]),
      eval_congr b fun x hx => h x (by simp [reads, hx])]

theorem upTo_nil {a b : Int} (h : b < a) : upTo a 1 b = [] := by
  have : (b - a + 1).toNat = 0 := by omega
  simp [upTo, this]

theorem upTo_cons {a b : Int} (h : a ≤ b) : upTo a 1 b = a :: upTo (a + 1) 1 b := by
  have : (b - a + 1).toNat = (b - (a + 1) + 1).toNat + 1 := by omega
  simp only [upTo, Int.ediv_one, this, List.range_succ_eq_map, List.map_cons, List.map_map]
  refine List.cons_eq_cons.2 ⟨by simp, List.map_congr_left fun k _ => ?_⟩
  simp only [Function.comp_apply]
  push_cast
  ring

/-- The iterations of a simple loop. -/
theorem iter_iff {Γ : Scope} {ρ : Iters} {x : String} {b : Src .block} {a : IrSt} {u : Ex} {u' : IrEx}
    (hu : ∀ σ, evalIr ρ σ u' = evalEx ρ σ u) (hd : ∀ y ∈ reads u, y ∉ writes b)
    (hρ : Agrees Γ ρ)
    (ih : ∀ ρ, Agrees { Γ with inds := x :: Γ.inds } ρ → ∀ σ o τ,
      Exec ρ (.src b) σ o τ ↔ IrExec ρ (.st a) σ o τ) :
    ∀ (m : Nat) (v n : Int) σ o τ, (n + 1 - v).toNat = m → evalEx ρ σ u = n →
      (Exec ρ (.iter x (upTo v 1 n) [] b) σ o τ ↔ IrExec ρ (.cell x v u' (.const 1) a) σ o τ)
  | 0, v, n, σ, o, τ, hm, hn => by
    have hlt : n < v := by omega
    rw [upTo_nil hlt]
    constructor
    · intro h
      cases h
      exact .fromEnd (by rw [hu, hn]; omega)
    · intro h
      cases h with
      | fromEnd h => exact .iterEnd
      | fromNext h => rw [hu, hn] at h; omega
      | fromBrk h => rw [hu, hn] at h; omega
      | fromRet h => rw [hu, hn] at h; omega
  | m + 1, v, n, σ, o, τ, hm, hn => by
    have hle : v ≤ n := by omega
    have hle' : v ≤ evalIr ρ σ u' := by rw [hu, hn]; exact hle
    have hb := ih _ (agrees_bind hρ x v)
    rw [upTo_cons hle]
    have hf : ∀ {o σ'}, Exec (bindIter ρ x v) (.src b) σ o σ' → evalEx ρ σ' u = n := by
      intro o σ' h
      rw [← hn]
      exact eval_congr u fun y hy => frame h y (hd y hy)
    constructor
    · intro h
      cases h with
      | iterNext h1 h2 =>
        cases h1 with
        | innermost h1 =>
          exact .fromNext hle' ((hb ..).1 h1)
            ((iter_iff hu hd hρ ih m (v + 1) n _ o τ (by omega) (hf h1)).1 h2)
      | iterBrk h1 => cases h1 with | innermost h1 => exact .fromBrk hle' ((hb ..).1 h1)
      | iterRet h1 => cases h1 with | innermost h1 => exact .fromRet hle' ((hb ..).1 h1)
    · intro h
      cases h with
      | fromEnd h => exact absurd hle' h
      | fromNext _ h1 h2 =>
        have h1 := (hb ..).2 h1
        exact .iterNext (.innermost h1)
          ((iter_iff hu hd hρ ih m (v + 1) n _ o τ (by omega) (hf h1)).2 h2)
      | fromBrk _ h1 => exact .iterBrk (.innermost ((hb ..).2 h1))
      | fromRet _ h1 => exact .iterRet (.innermost ((hb ..).2 h1))

theorem while_to {ρ : Iters} {c : Ex} {c' : IrEx} {b : Src .block} {a : IrSt}
    (hc : ∀ σ, evalIr ρ σ c' = evalEx ρ σ c)
    (ih : ∀ σ o τ, Exec ρ (.src b) σ o τ ↔ IrExec ρ (.st a) σ o τ) {σ o τ}
    (h : Exec ρ (.src (.whiles c b)) σ o τ) : IrExec ρ (.st (.whileOp c' a)) σ o τ := by
  generalize hk : Code.src (.whiles c b) = k at h
  induction h <;> try cases hk
  case whileEnd h => exact .whileEnd (by rwa [hc])
  case whileNext h h1 _ _ ih2 => exact .whileNext (by rwa [hc]) ((ih ..).1 h1) (ih2 hc ih rfl)
  case whileBrk h h1 _ => exact .whileBrk (by rwa [hc]) ((ih ..).1 h1)
  case whileRet h h1 _ => exact .whileRet (by rwa [hc]) ((ih ..).1 h1)

theorem while_from {ρ : Iters} {c : Ex} {c' : IrEx} {b : Src .block} {a : IrSt}
    (hc : ∀ σ, evalIr ρ σ c' = evalEx ρ σ c)
    (ih : ∀ σ o τ, Exec ρ (.src b) σ o τ ↔ IrExec ρ (.st a) σ o τ) {σ o τ}
    (h : IrExec ρ (.st (.whileOp c' a)) σ o τ) : Exec ρ (.src (.whiles c b)) σ o τ := by
  generalize hk : IrCode.st (.whileOp c' a) = k at h
  induction h <;> try cases hk
  case whileEnd h => exact .whileEnd (by rwa [← hc])
  case whileNext h h1 _ _ ih2 => exact .whileNext (by rwa [← hc]) ((ih ..).2 h1) (ih2 hc ih rfl)
  case whileBrk h h1 _ => exact .whileBrk (by rwa [← hc]) ((ih ..).2 h1)
  case whileRet h h1 _ => exact .whileRet (by rwa [← hc]) ((ih ..).2 h1)

/-- The lowering succeeds and keeps the meaning. -/
theorem lower_iff {k} (s : Src k) : ∀ Γ, inScope Γ s = true → simpleLoops s = true →
    ∃ t, lower Γ s = .ok t ∧ ∀ ρ, Agrees Γ ρ → ∀ σ o τ,
      Exec ρ (.src s) σ o τ ↔ IrExec ρ (.st t) σ o τ := by
  induction s with
  | assign x e =>
    intro Γ h _
    simp only [inScope, Bool.and_eq_true, decide_eq_true_eq, Bool.not_eq_true',
      decide_eq_false_iff_not] at h
    obtain ⟨e', he, hv⟩ := lowerEx_ok e h.1.1
    refine ⟨.set x e', by simp [lower, he, ok_bind, lowerAssign, h.1.2, h.2], fun ρ hρ σ o τ => ?_⟩
    constructor
    · intro h; cases h; rw [← hv ρ hρ σ]; exact .set
    · intro h; cases h; rw [hv ρ hρ σ]; exact .assign
  | ifs c b r ihb ihr =>
    intro Γ h hs
    simp only [inScope, simpleLoops, Bool.and_eq_true] at h hs
    obtain ⟨c', hc, hv⟩ := lowerEx_ok c h.1.1
    obtain ⟨b', hb, hbv⟩ := ihb Γ h.1.2 hs.1
    obtain ⟨r', hr, hrv⟩ := ihr Γ h.2 hs.2
    refine ⟨.ifOp c' b' r', by simp [lower, hc, hb, hr, ok_bind, pure_ok], fun ρ hρ σ o τ => ?_⟩
    constructor
    · intro h
      cases h with
      | ifTrue h h1 => exact .ifTrue (by rwa [hv ρ hρ]) ((hbv ρ hρ ..).1 h1)
      | ifFalse h h1 => exact .ifFalse (by rwa [hv ρ hρ]) ((hrv ρ hρ ..).1 h1)
    · intro h
      cases h with
      | ifTrue h h1 => exact .ifTrue (by rwa [← hv ρ hρ]) ((hbv ρ hρ ..).2 h1)
      | ifFalse h h1 => exact .ifFalse (by rwa [← hv ρ hρ]) ((hrv ρ hρ ..).2 h1)
  | elseIf c b r ihb ihr =>
    intro Γ h hs
    simp only [inScope, simpleLoops, Bool.and_eq_true] at h hs
    obtain ⟨c', hc, hv⟩ := lowerEx_ok c h.1.1
    obtain ⟨b', hb, hbv⟩ := ihb Γ h.1.2 hs.1
    obtain ⟨r', hr, hrv⟩ := ihr Γ h.2 hs.2
    refine ⟨.ifOp c' b' r', by simp [lower, hc, hb, hr, ok_bind, pure_ok], fun ρ hρ σ o τ => ?_⟩
    constructor
    · intro h
      cases h with
      | elseIfTrue h h1 => exact .ifTrue (by rwa [hv ρ hρ]) ((hbv ρ hρ ..).1 h1)
      | elseIfFalse h h1 => exact .ifFalse (by rwa [hv ρ hρ]) ((hrv ρ hρ ..).1 h1)
    · intro h
      cases h with
      | ifTrue h h1 => exact .elseIfTrue (by rwa [← hv ρ hρ]) ((hbv ρ hρ ..).2 h1)
      | ifFalse h h1 => exact .elseIfFalse (by rwa [← hv ρ hρ]) ((hrv ρ hρ ..).2 h1)
  | fors is b ih =>
    intro Γ h hs
    match is, h, hs with
    | [], _, hs => simp [simpleLoops] at hs
    | _ :: _ :: _, _, hs => simp [simpleLoops] at hs
    | [⟨x, l, u, none⟩], h, hs =>
      simp only [inScope, loopsScoped, simpleLoops, Bool.and_eq_true, List.all_eq_true, Bool.not_eq_true',
        decide_eq_false_iff_not] at h hs
      obtain ⟨l', hl, hlv⟩ := lowerEx_ok l h.1.1.1
      obtain ⟨u', hu, huv⟩ := lowerEx_ok u h.1.1.2
      obtain ⟨a, ha, hav⟩ := ih _ h.2 hs.2
      refine ⟨.seq (.forOp x l' u' (.const 1) a) .skip,
        by simp [lower, lowerIndices, lowerIndex, hl, hu, ha, ok_bind, pure_ok], fun ρ hρ σ o τ => ?_⟩
      have key := iter_iff (huv ρ hρ) hs.1.2 hρ hav _ (evalEx ρ σ l) (evalEx ρ σ u) σ o τ rfl rfl
      rw [← hlv ρ hρ σ] at key
      have hvals : indexValues ρ σ ⟨x, l, u, none⟩ = upTo (evalIr ρ σ l') 1 (evalEx ρ σ u) := by
        simp [indexValues, rangeValues, hlv ρ hρ σ]
      constructor
      · intro h
        cases h with
        | fors h =>
          cases h with
          | loop h =>
            rw [hvals] at h
            have h := key.1 h
            by_cases ho : o = .next
            · subst ho
              exact .seq (.forOp h) .skip
            · exact .stop ho (.forOp h)
      · intro h
        refine .fors (.loop ?_)
        rw [hvals]
        cases h with
        | seq h1 h2 =>
          cases h2
          cases h1 with
          | forOp h1 => exact key.2 h1
        | stop _ h1 =>
          cases h1 with
          | forOp h1 => exact key.2 h1
    | [⟨x, l, u, some _⟩], _, hs => simp [simpleLoops] at hs
  | whiles c b ih =>
    intro Γ h hs
    simp only [inScope, simpleLoops, Bool.and_eq_true] at h hs
    obtain ⟨c', hc, hv⟩ := lowerEx_ok c h.1
    obtain ⟨b', hb, hbv⟩ := ih Γ h.2 hs
    exact ⟨.whileOp c' b', by simp [lower, hc, hb, ok_bind, pure_ok], fun ρ hρ σ o τ =>
      ⟨while_to (hv ρ hρ) (hbv ρ hρ), while_from (hv ρ hρ) (hbv ρ hρ)⟩⟩
  | brk => exact fun Γ _ _ => ⟨.breakOp, rfl, fun ρ _ σ o τ =>
      ⟨fun h => by cases h; exact .breakOp, fun h => by cases h; exact .brk⟩⟩
  | ret => exact fun Γ _ _ => ⟨.returnOp, rfl, fun ρ _ σ o τ =>
      ⟨fun h => by cases h; exact .returnOp, fun h => by cases h; exact .ret⟩⟩
  | nil => exact fun Γ _ _ => ⟨.skip, rfl, fun ρ _ σ o τ =>
      ⟨fun h => by cases h; exact .skip, fun h => by cases h; exact .nil⟩⟩
  | noElse => exact fun Γ _ _ => ⟨.noRegion, rfl, fun ρ _ σ o τ =>
      ⟨fun h => by cases h; exact .noRegion, fun h => by cases h; exact .noElse⟩⟩
  | cons s b ihs ihb =>
    intro Γ h hs
    simp only [inScope, simpleLoops, Bool.and_eq_true] at h hs
    obtain ⟨s', hs', hsv⟩ := ihs Γ h.1 hs.1
    obtain ⟨b', hb, hbv⟩ := ihb Γ h.2 hs.2
    refine ⟨.seq s' b', by simp [lower, hs', hb, ok_bind, pure_ok], fun ρ hρ σ o τ => ?_⟩
    constructor
    · intro h
      cases h with
      | cons h1 h2 => exact .seq ((hsv ρ hρ ..).1 h1) ((hbv ρ hρ ..).1 h2)
      | stop h h1 => exact .stop h ((hsv ρ hρ ..).1 h1)
    · intro h
      cases h with
      | seq h1 h2 => exact .cons ((hsv ρ hρ ..).2 h1) ((hbv ρ hρ ..).2 h2)
      | stop h h1 => exact .stop h ((hsv ρ hρ ..).2 h1)
  | els b ih =>
    intro Γ h hs
    simp only [inScope, simpleLoops] at h hs
    obtain ⟨b', hb, hbv⟩ := ih Γ h hs
    refine ⟨b', by simp [lower, hb], fun ρ hρ σ o τ => ?_⟩
    constructor
    · intro h
      cases h with
      | els h => exact (hbv ρ hρ ..).1 h
    · intro h
      exact .els ((hbv ρ hρ ..).2 h)

/-- The execution of the operations is deterministic. -/
theorem irExec_det {ρ c σ o τ} (h : IrExec ρ c σ o τ) : ∀ {o' τ'}, IrExec ρ c σ o' τ' → o' = o ∧ τ' = τ := by
  induction h <;> intro o' τ' h' <;> cases h' <;> grind

theorem bind_ok {α β} {x : Low α} {f : α → Low β} {b : β} (h : (x >>= f) = .ok b) :
    ∃ a, x = .ok a ∧ f a = .ok b := by
  cases x with
  | ok a => exact ⟨a, rfl, h⟩
  | error => cases h
  | ub => cases h

theorem exScoped_of_ok {Γ} : ∀ e e', lowerEx Γ e = .ok e' → exScoped Γ e = true
  | .const _, _, _ => rfl
  | .var x, e', h => by
    simp only [lowerEx, lowerVar] at h
    split at h
    · simp [exScoped, *]
    · split at h
      · simp [exScoped, *]
      · cases h
  | .op f a b, e', h => by
    obtain ⟨a', ha, h⟩ := bind_ok h
    obtain ⟨b', hb, h⟩ := bind_ok h
    simp [exScoped, exScoped_of_ok a a' ha, exScoped_of_ok b b' hb]

theorem lowerEx_ne_ub {Γ} : ∀ e, lowerEx Γ e ≠ .ub
  | .const _ => by simp [lowerEx]
  | .var x => by
    simp only [lowerEx, lowerVar]
    split
    · simp
    · split <;> simp
  | .op f a b => by
    have ha := lowerEx_ne_ub (Γ := Γ) a
    have hb := lowerEx_ne_ub (Γ := Γ) b
    simp only [lowerEx]
    cases h : lowerEx Γ a with
    | ub => exact absurd h ha
    | error => exact nofun
    | ok a' =>
      cases h' : lowerEx Γ b with
      | ub => exact absurd h' hb
      | error => exact nofun
      | ok b' => exact nofun

theorem inScope_of_ok {k} (s : Src k) : ∀ Γ, noLoops s = true → ∀ t, lower Γ s = .ok t → inScope Γ s = true := by
  induction s with
  | assign x e =>
    intro Γ _ t h
    obtain ⟨e', he, h⟩ := bind_ok h
    simp only [lowerAssign] at h
    split at h
    · cases h
    · split at h
      · simp [inScope, exScoped_of_ok e e' he, *]
      · cases h
  | fors => intro Γ hs; simp [noLoops] at hs
  | brk => intros; rfl
  | ret => intros; rfl
  | nil => intros; rfl
  | noElse => intros; rfl
  | els b ih =>
    intro Γ hs t h
    exact ih Γ hs t h
  | cons a b iha ihb =>
    intro Γ hs t h
    simp only [noLoops, Bool.and_eq_true] at hs
    obtain ⟨a', ha, h⟩ := bind_ok h
    obtain ⟨b', hb, h⟩ := bind_ok h
    simp [inScope, iha Γ hs.1 a' ha, ihb Γ hs.2 b' hb]
  | whiles c b ih =>
    intro Γ hs t h
    obtain ⟨c', hc, h⟩ := bind_ok h
    obtain ⟨b', hb, h⟩ := bind_ok h
    simp [inScope, exScoped_of_ok c c' hc, ih Γ hs b' hb]
  | ifs c b r ihb ihr =>
    intro Γ hs t h
    simp only [noLoops, Bool.and_eq_true] at hs
    obtain ⟨c', hc, h⟩ := bind_ok h
    obtain ⟨b', hb, h⟩ := bind_ok h
    obtain ⟨r', hr, h⟩ := bind_ok h
    simp [inScope, exScoped_of_ok c c' hc, ihb Γ hs.1 b' hb, ihr Γ hs.2 r' hr]
  | elseIf c b r ihb ihr =>
    intro Γ hs t h
    simp only [noLoops, Bool.and_eq_true] at hs
    obtain ⟨c', hc, h⟩ := bind_ok h
    obtain ⟨b', hb, h⟩ := bind_ok h
    obtain ⟨r', hr, h⟩ := bind_ok h
    simp [inScope, exScoped_of_ok c c' hc, ihb Γ hs.1 b' hb, ihr Γ hs.2 r' hr]

theorem simpleLoops_of_noLoops {k} (s : Src k) : noLoops s = true → simpleLoops s = true := by
  induction s <;> simp_all [noLoops, simpleLoops]

theorem bind_ne_ub {α β} {x : Low α} {f : α → Low β} (hx : x ≠ .ub) (hf : ∀ a, f a ≠ .ub) :
    (x >>= f) ≠ .ub := by
  cases x with
  | ok a => exact hf a
  | error => exact nofun
  | ub => exact absurd rfl hx

theorem lower_ne_ub {k} (s : Src k) (vars : List String) : noLoops s = true → lower ⟨[], vars⟩ s ≠ .ub := by
  induction s with
  | assign x e =>
    intro _
    refine bind_ne_ub (lowerEx_ne_ub e) fun e' => ?_
    simp only [lowerAssign]
    split
    · rename_i h; simp at h
    · split <;> simp
  | fors => intro hs; simp [noLoops] at hs
  | brk => intros; exact nofun
  | ret => intros; exact nofun
  | nil => intros; exact nofun
  | noElse => intros; exact nofun
  | els b ih => intro hs; exact ih hs
  | cons a b iha ihb =>
    intro hs
    simp only [noLoops, Bool.and_eq_true] at hs
    exact bind_ne_ub (iha hs.1) fun _ => bind_ne_ub (ihb hs.2) fun _ => nofun
  | whiles c b ih =>
    intro hs
    exact bind_ne_ub (lowerEx_ne_ub c) fun _ => bind_ne_ub (ih hs) fun _ => nofun
  | ifs c b r ihb ihr =>
    intro hs
    simp only [noLoops, Bool.and_eq_true] at hs
    exact bind_ne_ub (lowerEx_ne_ub c) fun _ => bind_ne_ub (ihb hs.1) fun _ => bind_ne_ub (ihr hs.2) fun _ => nofun
  | elseIf c b r ihb ihr =>
    intro hs
    simp only [noLoops, Bool.and_eq_true] at hs
    exact bind_ne_ub (lowerEx_ne_ub c) fun _ => bind_ne_ub (ihb hs.1) fun _ => bind_ne_ub (ihr hs.2) fun _ => nofun

theorem error_of_noLoops {k} (s : Src k) (vars : List String) (hl : noLoops s = true)
    (hs : inScope ⟨[], vars⟩ s = false) : lower ⟨[], vars⟩ s = .error := by
  cases h : lower ⟨[], vars⟩ s with
  | ok t => simp [inScope_of_ok s _ hl t h] at hs
  | error => rfl
  | ub => exact absurd h (lower_ne_ub s vars hl)

end Marco.Stmts
