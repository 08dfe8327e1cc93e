import Verif.Front.TySound

/-!
# Checked expressions: a second visit changes nothing, and they stand for one expression
-/

namespace Caesar
namespace Front

mutual

/-- Triggers capture the quantified variables, and no output is read if `pre` is set. -/
def RExpr.Caught (pre : Bool) (Γ : Ctx) : RExpr → Prop
  | .var _ x => pre = true → ∀ t, Γ x ≠ some (.var t .output)
  | .call _ _ args => CaughtL pre Γ args
  | .ite _ c a b => c.Caught pre Γ ∧ a.Caught pre Γ ∧ b.Caught pre Γ
  | .bin _ _ a b => a.Caught pre Γ ∧ b.Caught pre Γ
  | .un _ _ a => a.Caught pre Γ
  | .cast _ a => a.Caught pre Γ
  | .quant _ _ vs tr a => captures vs tr = true ∧ CaughtLL pre Γ tr ∧ a.Caught pre Γ
  | .subst _ _ v a => v.Caught pre Γ ∧ a.Caught pre Γ
  | .lit _ _ => True

/-- `RExpr.Caught` for lists. -/
def CaughtL (pre : Bool) (Γ : Ctx) : List RExpr → Prop
  | [] => True
  | e :: es => e.Caught pre Γ ∧ CaughtL pre Γ es

/-- `RExpr.Caught` for triggers. -/
def CaughtLL (pre : Bool) (Γ : Ctx) : List (List RExpr) → Prop
  | [] => True
  | es :: ess => CaughtL pre Γ es ∧ CaughtLL pre Γ ess

end

theorem caughtL_mem {pre : Bool} {Γ : Ctx} : ∀ {es : List RExpr}, CaughtL pre Γ es → ∀ e ∈ es, e.Caught pre Γ
  | e :: es, h, x, hx => by
    simp only [CaughtL] at h
    rcases List.mem_cons.1 hx with rfl | hx
    · exact h.1
    · exact caughtL_mem h.2 x hx

theorem caughtLL_mem {pre : Bool} {Γ : Ctx} : ∀ {es : List (List RExpr)}, CaughtLL pre Γ es → ∀ e ∈ es, CaughtL pre Γ e
  | e :: es, h, x, hx => by
    simp only [CaughtLL] at h
    rcases List.mem_cons.1 hx with rfl | hx
    · exact h.1
    · exact caughtLL_mem h.2 x hx

/-! ## The output of the type checker is caught -/

section
variable {pre : Bool} {Γ : Ctx}

theorem tryCast_caught {t : RTy} {e e' : RExpr} (h : tryCast t e = some e') (he : e.Caught pre Γ) : e'.Caught pre Γ := by
  obtain ⟨s, -, ⟨-, rfl⟩ | ⟨-, rfl⟩⟩ := tryCast_some h
  · exact he
  · simpa only [RExpr.Caught] using he

theorem tryUnify_caught {a b a' b' : RExpr} {u : RTy} (h : tryUnify a b = some (u, a', b')) (ha : a.Caught pre Γ)
    (hb : b.Caught pre Γ) : a'.Caught pre Γ ∧ b'.Caught pre Γ := by
  obtain ⟨s, t, -, -, ⟨-, -, rfl, rfl⟩ | ⟨-, -, rfl, rfl⟩ | ⟨-, -, rfl, rfl⟩⟩ := tryUnify_some h
  · exact ⟨ha, hb⟩
  · exact ⟨by simpa only [RExpr.Caught] using ha, hb⟩
  · exact ⟨ha, by simpa only [RExpr.Caught] using hb⟩

theorem checkArgs_caught : ∀ {ps : List RParam} {as as' : List RExpr}, checkArgs ps as = some as' → CaughtL pre Γ as →
    CaughtL pre Γ as'
  | [], as, as', h, hl => by
    have : as = as' := by cases as <;> · simp only [checkArgs, Option.some.injEq] at h; exact h
    rw [← this]; exact hl
  | _ :: _, [], as', h, hl => by simp only [checkArgs, Option.some.injEq] at h; rw [← h]; exact hl
  | (t, l) :: ps, a :: as, as', h, hl => by
    simp only [checkArgs, Option.bind_eq_bind] at h
    split at h
    · simp at h
    · simp only [Option.bind_eq_some_iff, Option.pure_def, Option.some.injEq] at h
      obtain ⟨a', ha, as'', has, rfl⟩ := h
      simp only [CaughtL] at hl ⊢
      exact ⟨tryCast_caught ha hl.1, checkArgs_caught has hl.2⟩

theorem checkCall_caught {ps : List RParam} {as as' : List RExpr} (h : checkCall ps as = some as') (hl : CaughtL pre Γ as) :
    CaughtL pre Γ as' := by
  unfold checkCall at h
  split at h
  · cases h
  · exact checkArgs_caught h hl

theorem checkListOp_caught {k : ListOp} {as as' : List RExpr} {t : RTy} (h : checkListOp k as = some (as', t))
    (hl : CaughtL pre Γ as) : CaughtL pre Γ as' := by
  unfold checkListOp at h
  split at h
  · split at h
    · simp only [Option.bind_eq_bind, Option.bind_eq_some_iff, Option.pure_def, Option.some.injEq, Prod.mk.injEq] at h
      obtain ⟨i, hi, rfl, rfl⟩ := h
      simp only [CaughtL, and_true] at hl ⊢
      exact ⟨hl.1, tryCast_caught hi hl.2⟩
    · cases h
  · split at h
    · simp only [Option.bind_eq_bind, Option.bind_eq_some_iff, Option.pure_def, Option.some.injEq, Prod.mk.injEq] at h
      obtain ⟨i, hi, v, hv, rfl, rfl⟩ := h
      simp only [CaughtL, and_true] at hl ⊢
      exact ⟨hl.1, tryCast_caught hi hl.2.1, tryCast_caught hv hl.2.2⟩
    · cases h
  · cases h; exact hl
  · cases h

theorem checkDiv_caught {a b a' b' : RExpr} {u : RTy} (h : checkDiv a b = some (u, a', b')) (ha : a.Caught pre Γ)
    (hb : b.Caught pre Γ) : a'.Caught pre Γ ∧ b'.Caught pre Γ := by
  have key : ∀ (t : RTy) (e : RExpr), e.Caught pre Γ → ((tryCast t e).getD e).Caught pre Γ := by
    intro t e hl
    cases he : tryCast t e with
    | none => exact hl
    | some e' => exact tryCast_caught he hl
  unfold checkDiv at h
  simp only at h
  split at h
  · simp only [Option.some.injEq, Prod.mk.injEq] at h
    obtain ⟨-, rfl, rfl⟩ := h
    exact ⟨key _ _ ha, key _ _ hb⟩
  · simp only [Option.bind_eq_bind, Option.bind_eq_some_iff, Option.pure_def, Option.some.injEq, Prod.mk.injEq] at h
    obtain ⟨x, hx, y, hy, -, rfl, rfl⟩ := h
    exact ⟨tryCast_caught hx (key _ _ ha), tryCast_caught hy (key _ _ hb)⟩

theorem checkBin_caught {op : RBin} {a b a' b' : RExpr} {u : RTy} (h : checkBin op a b = some (u, a', b')) (ha : a.Caught pre Γ)
    (hb : b.Caught pre Γ) : a'.Caught pre Γ ∧ b'.Caught pre Γ := by
  unfold checkBin at h
  cases op <;>
    simp only [Option.bind_eq_bind, Option.bind_eq_some_iff, Option.pure_def, Option.some.injEq, Prod.mk.injEq, Prod.exists] at h
  case div => exact checkDiv_caught h ha hb
  case and => obtain ⟨-, -, -, -, -, rfl, rfl⟩ := h; exact ⟨ha, hb⟩
  case or => obtain ⟨-, -, -, -, -, rfl, rfl⟩ := h; exact ⟨ha, hb⟩
  case eq => obtain ⟨_, _, _, h, -, rfl, rfl⟩ := h; exact tryUnify_caught h ha hb
  case ne => obtain ⟨_, _, _, h, -, rfl, rfl⟩ := h; exact tryUnify_caught h ha hb
  case lt => obtain ⟨-, -, -, -, _, _, _, h, -, rfl, rfl⟩ := h; exact tryUnify_caught h ha hb
  case le => obtain ⟨-, -, -, -, _, _, _, h, -, rfl, rfl⟩ := h; exact tryUnify_caught h ha hb
  case ge => obtain ⟨-, -, -, -, _, _, _, h, -, rfl, rfl⟩ := h; exact tryUnify_caught h ha hb
  case gt => obtain ⟨-, -, -, -, _, _, _, h, -, rfl, rfl⟩ := h; exact tryUnify_caught h ha hb
  all_goals
    obtain ⟨-, -, -, -, h⟩ := h
    exact tryUnify_caught h ha hb

theorem checkUn_caught {op : RUn} {a a' : RExpr} {u : RTy} (h : checkUn op a = some (u, a')) (ha : a.Caught pre Γ) :
    a'.Caught pre Γ := by
  unfold checkUn at h
  cases op <;>
    simp only [Option.bind_eq_bind, Option.bind_eq_some_iff, Option.pure_def, Option.some.injEq, Prod.mk.injEq] at h
  case not => obtain ⟨-, -, -, -, -, rfl⟩ := h; exact ha
  case non => obtain ⟨-, -, -, -, -, rfl⟩ := h; exact ha
  case embed => obtain ⟨x, hx, -, rfl⟩ := h; exact tryCast_caught hx ha
  case iverson => obtain ⟨x, hx, -, rfl⟩ := h; exact tryCast_caught hx ha
  case parens => obtain ⟨-, -, -, rfl⟩ := h; exact ha

end

theorem Ext.output {Γ Γ' : Ctx} (h : Ext Γ Γ') {x : Ident} {t : RTy} (hx : Γ' x = some (.var t .output)) :
    ∃ t', Γ x = some (.var t' .output) := by
  rcases h x with h1 | ⟨k, t', h1, h2⟩
  · exact ⟨t, h1.symm.trans hx⟩
  · rw [hx] at h2
    cases h2
    exact ⟨_, h1⟩

mutual

theorem RExpr.Caught.ext {pre : Bool} {Γ Γ' : Ctx} (h : Ext Γ Γ') : ∀ {e : RExpr}, e.Caught pre Γ → e.Caught pre Γ'
  | .var _ x, hc => by
    simp only [RExpr.Caught] at hc ⊢
    intro hp t hx
    obtain ⟨t', hx⟩ := h.output hx
    exact hc hp _ hx
  | .call _ _ args, hc => by simp only [RExpr.Caught] at hc ⊢; exact CaughtL_ext h hc
  | .ite _ c a b, hc => by simp only [RExpr.Caught] at hc ⊢; exact ⟨hc.1.ext h, hc.2.1.ext h, hc.2.2.ext h⟩
  | .bin _ _ a b, hc => by simp only [RExpr.Caught] at hc ⊢; exact ⟨hc.1.ext h, hc.2.ext h⟩
  | .un _ _ a, hc => by simp only [RExpr.Caught] at hc ⊢; exact hc.ext h
  | .cast _ a, hc => by simp only [RExpr.Caught] at hc ⊢; exact hc.ext h
  | .quant _ _ vs tr a, hc => by simp only [RExpr.Caught] at hc ⊢; exact ⟨hc.1, CaughtLL_ext h hc.2.1, hc.2.2.ext h⟩
  | .subst _ _ v a, hc => by simp only [RExpr.Caught] at hc ⊢; exact ⟨hc.1.ext h, hc.2.ext h⟩
  | .lit _ _, hc => by simp only [RExpr.Caught]

theorem CaughtL_ext {pre : Bool} {Γ Γ' : Ctx} (h : Ext Γ Γ') : ∀ {es : List RExpr}, CaughtL pre Γ es → CaughtL pre Γ' es
  | [], _ => by simp only [CaughtL]
  | e :: es, hc => by simp only [CaughtL] at hc ⊢; exact ⟨hc.1.ext h, CaughtL_ext h hc.2⟩

theorem CaughtLL_ext {pre : Bool} {Γ Γ' : Ctx} (h : Ext Γ Γ') : ∀ {es : List (List RExpr)}, CaughtLL pre Γ es →
    CaughtLL pre Γ' es
  | [], _ => by simp only [CaughtLL]
  | e :: es, hc => by simp only [CaughtLL] at hc ⊢; exact ⟨CaughtL_ext h hc.1, CaughtLL_ext h hc.2⟩

end

mutual

theorem check_caught (pre : Bool) : ∀ (e : RExpr) {imp : Bool} {Γ Γ' : Ctx} {e' : RExpr}, check pre imp e Γ = some (e', Γ') →
    e'.Caught pre Γ'
  | .var ty x, imp, Γ, Γ', e', h => by
    simp only [check] at h
    split at h
    · rename_i t k hk
      split at h
      · cases h
      · rename_i hpre
        simp only [Option.bind_eq_bind, Option.bind_eq_some_iff, Option.pure_def, Option.some.injEq, Prod.mk.injEq] at h
        obtain ⟨e, he, rfl, rfl⟩ := h
        rw [finish_some he]
        simp only [RExpr.setTy, RExpr.Caught]
        intro hp t' hx
        rw [hk] at hx
        cases hx
        exact hpre (by rw [hp]; rfl)
    · cases h
  | .call ty f args, imp, Γ, Γ', e', h => by
    simp only [check, Option.bind_eq_bind, Option.bind_eq_some_iff, Prod.exists] at h
    obtain ⟨args', Γ₁, hL, d, hd, h⟩ := h
    have hc := checkL_caught pre args hL
    split at h
    · simp at h
    cases d <;>
      simp only [Option.bind_eq_some_iff, Option.pure_def, Option.some.injEq, Prod.mk.injEq, Prod.exists, reduceCtorEq] at h
    case proc =>
      obtain ⟨as, has, e, he, rfl, rfl⟩ := h
      rw [finish_some he]
      simp only [RExpr.setTy, RExpr.Caught]
      exact checkCall_caught has hc
    case func =>
      obtain ⟨as, has, e, he, rfl, rfl⟩ := h
      rw [finish_some he]
      simp only [RExpr.setTy, RExpr.Caught]
      exact checkCall_caught has hc
    case dist =>
      obtain ⟨as, has, e, he, rfl, rfl⟩ := h
      rw [finish_some he]
      simp only [RExpr.setTy, RExpr.Caught]
      exact checkCall_caught has hc
    case listOp =>
      obtain ⟨as, t, has, e, he, rfl, rfl⟩ := h
      rw [finish_some he]
      simp only [RExpr.setTy, RExpr.Caught]
      exact checkListOp_caught has hc
  | .ite ty c a b, imp, Γ, Γ', e', h => by
    simp only [check, Option.bind_eq_bind, Option.bind_eq_some_iff, Prod.exists, Option.pure_def, Option.some.injEq,
      Prod.mk.injEq] at h
    obtain ⟨c', Γ₁, hc, a', Γ₂, ha, b', Γ₃, hb, c'', hcc, t, a'', b'', hab, e, he, rfl, rfl⟩ := h
    have h2 := (check_frame pre a ha).1.1
    have h3 := (check_frame pre b hb).1.1
    rw [finish_some he]
    simp only [RExpr.setTy, RExpr.Caught]
    exact ⟨tryCast_caught hcc ((check_caught pre c hc).ext (h2.trans h3)),
      tryUnify_caught hab ((check_caught pre a ha).ext h3) (check_caught pre b hb)⟩
  | .bin ty op a b, imp, Γ, Γ', e', h => by
    simp only [check, Option.bind_eq_bind, Option.bind_eq_some_iff, Prod.exists, Option.pure_def, Option.some.injEq,
      Prod.mk.injEq] at h
    obtain ⟨a', Γ₂, ha, b', Γ₃, hb, t, a'', b'', hab, e, he, rfl, rfl⟩ := h
    have h3 := (check_frame pre b hb).1.1
    rw [finish_some he]
    simp only [RExpr.setTy, RExpr.Caught]
    exact checkBin_caught hab ((check_caught pre a ha).ext h3) (check_caught pre b hb)
  | .un ty op a, imp, Γ, Γ', e', h => by
    simp only [check, Option.bind_eq_bind, Option.bind_eq_some_iff, Prod.exists, Option.pure_def, Option.some.injEq,
      Prod.mk.injEq] at h
    obtain ⟨a', Γ₂, ha, t, a'', hab, e, he, rfl, rfl⟩ := h
    rw [finish_some he]
    simp only [RExpr.setTy, RExpr.Caught]
    exact checkUn_caught hab (check_caught pre a ha)
  | .cast ty a, imp, Γ, Γ', e', h => by
    simp only [check, Option.bind_eq_bind, Option.bind_eq_some_iff, Prod.exists, Option.pure_def, Option.some.injEq,
      Prod.mk.injEq] at h
    obtain ⟨a', Γ₂, ha, t, -, e, he, rfl, rfl⟩ := h
    rw [finish_some he]
    simp only [RExpr.setTy, RExpr.Caught]
    exact check_caught pre a ha
  | .quant ty op vs tr a, imp, Γ, Γ', e', h => by
    simp only [check, Option.bind_eq_bind, Option.bind_eq_some_iff, Prod.exists] at h
    obtain ⟨tr', Γ₁, ht, a', Γ₂, ha, -, -, h⟩ := h
    split at h
    · simp at h
    rename_i hcap
    simp only [Option.bind_eq_some_iff, Option.pure_def, Option.some.injEq, Prod.mk.injEq] at h
    obtain ⟨e, he, rfl, rfl⟩ := h
    rw [finish_some he]
    simp only [RExpr.setTy, RExpr.Caught]
    exact ⟨by simpa using hcap, CaughtLL_ext (check_frame pre a ha).1.1 (checkLL_caught pre tr ht), check_caught pre a ha⟩
  | .subst ty x v a, imp, Γ, Γ', e', h => by
    simp only [check, Option.bind_eq_bind, Option.bind_eq_some_iff, Prod.exists, Option.pure_def, Option.some.injEq,
      Prod.mk.injEq] at h
    obtain ⟨v', Γ₁, hv, Γ₂, hx, a', Γ₃, ha, t, -, e, he, rfl, rfl⟩ := h
    rw [finish_some he]
    simp only [RExpr.setTy, RExpr.Caught]
    exact ⟨(check_caught pre v hv).ext ((letTy_frame hx).1.trans (check_frame pre a ha).1.1), check_caught pre a ha⟩
  | .lit ty l, imp, Γ, Γ', e', h => by
    simp only [check, Option.bind_eq_bind, Option.bind_eq_some_iff, Option.pure_def, Option.some.injEq, Prod.mk.injEq] at h
    obtain ⟨e, he, rfl, rfl⟩ := h
    rw [finish_some he]
    simp only [RExpr.setTy, RExpr.Caught]

theorem checkL_caught (pre : Bool) : ∀ (es : List RExpr) {Γ Γ' : Ctx} {es' : List RExpr}, checkL pre es Γ = some (es', Γ') →
    CaughtL pre Γ' es'
  | [], Γ, Γ', es', h => by
    simp only [checkL, Option.some.injEq, Prod.mk.injEq] at h
    obtain ⟨rfl, rfl⟩ := h
    simp only [CaughtL]
  | e :: es, Γ, Γ', es', h => by
    simp only [checkL, Option.bind_eq_bind, Option.bind_eq_some_iff, Prod.exists, Option.pure_def, Option.some.injEq,
      Prod.mk.injEq] at h
    obtain ⟨e', Γ₁, he, es'', Γ₂, hes, rfl, rfl⟩ := h
    simp only [CaughtL]
    exact ⟨(check_caught pre e he).ext (checkL_frame pre es hes).1.1, checkL_caught pre es hes⟩

theorem checkLL_caught (pre : Bool) : ∀ (es : List (List RExpr)) {Γ Γ' : Ctx} {es' : List (List RExpr)},
    checkLL pre es Γ = some (es', Γ') → CaughtLL pre Γ' es'
  | [], Γ, Γ', es', h => by
    simp only [checkLL, Option.some.injEq, Prod.mk.injEq] at h
    obtain ⟨rfl, rfl⟩ := h
    simp only [CaughtLL]
  | e :: es, Γ, Γ', es', h => by
    simp only [checkLL, Option.bind_eq_bind, Option.bind_eq_some_iff, Prod.exists, Option.pure_def, Option.some.injEq,
      Prod.mk.injEq] at h
    obtain ⟨e', Γ₁, he, es'', Γ₂, hes, rfl, rfl⟩ := h
    simp only [CaughtLL]
    exact ⟨CaughtL_ext (checkLL_frame pre es hes).1.1 (checkL_caught pre e he), checkLL_caught pre es hes⟩

end

/-! ## A second visit -/

theorem ty_call (t : Option RTy) (f : Ident) (as : List RExpr) : (RExpr.call t f as).ty = t := rfl

theorem ty_quant (t : Option RTy) (op : QOp) (vs : List QVar) (tr : List (List RExpr)) (a : RExpr) :
    (RExpr.quant t op vs tr a).ty = t := rfl

theorem ty_subst (t : Option RTy) (x : Ident) (v a : RExpr) : (RExpr.subst t x v a).ty = t := rfl

theorem partialCmp_refl (t : Ty) : t.partialCmp t = some .eq := partialCmp_eq.2 rfl

theorem tryCast_self {t : Ty} {e : RExpr} (h : e.ty = some (.val t)) : tryCast (.val t) e = some e := by
  simp [tryCast, h, RTy.partialCmp, partialCmp_refl]

theorem tryUnify_self {t : Ty} {a b : RExpr} (ha : a.ty = some (.val t)) (hb : b.ty = some (.val t)) :
    tryUnify a b = some (.val t, a, b) := by
  simp [tryUnify, ha, hb, RTy.partialCmp, partialCmp_refl]

theorem opTy_self {p : Ty → Bool} {t : Ty} {a : RExpr} (ha : a.ty = some (.val t)) (hp : p t = true) : opTy p a = some () := by
  simp [opTy, ha, hp]

theorem finish_self {t : RTy} {e : RExpr} (h : e.ty = some t) : finish t e = some e := by simp [finish, h]

theorem dite_isSome {α : Type} {c : Prop} [Decidable c] {f : c → α} {x : α}
    (h : (if h : c then some (f h) else none) = some x) : c := by
  split at h
  · assumption
  · cases h

theorem checkBin_bin {op : RBin} {t : Ty} {o : BinOp t} {a b : RExpr} (ho : binOp op t = some o) (ha : a.ty = some (.val t))
    (hb : b.ty = some (.val t)) : checkBin op a b = some (.val t, a, b) := by
  cases op <;> simp only [binOp] at ho
  case div =>
    have h := dite_isSome ho
    cases t <;> first | (cases h; done) | skip
    · simp [checkBin, checkDiv, tryCast_self ha, tryCast_self hb]
    · have : ∀ {e : RExpr}, e.ty = some (.val .real) → tryCast (.val .ureal) e = none := by
        intro e he
        simp only [tryCast, he, RTy.partialCmp]
        rfl
      simp [checkBin, checkDiv, this ha, this hb, tryCast_self ha, tryCast_self hb]
  case and =>
    cases t <;> first | (cases ho; done) | skip
    simp [checkBin, opTy_self (p := isBool) ha rfl, opTy_self (p := isBool) hb rfl]
  case or =>
    cases t <;> first | (cases ho; done) | skip
    simp [checkBin, opTy_self (p := isBool) ha rfl, opTy_self (p := isBool) hb rfl]
  all_goals first
    | (have h := dite_isSome ho
       simp [checkBin, opTy_self ha h, opTy_self hb h, tryUnify_self ha hb])
    | cases ho

theorem checkBin_rel {op : RBin} {t : Ty} {o : RelOp t} {a b : RExpr} (ho : relOp op t = some o) (ha : a.ty = some (.val t))
    (hb : b.ty = some (.val t)) : checkBin op a b = some (.val .bool, a, b) := by
  cases op <;> simp only [relOp] at ho
  case eq => simp [checkBin, tryUnify_self ha hb]
  case ne => simp [checkBin, tryUnify_self ha hb]
  all_goals first
    | (have h := dite_isSome ho
       simp [checkBin, opTy_self ha h, opTy_self hb h, tryUnify_self ha hb])
    | cases ho

theorem checkUn_un {op : RUn} {t : Ty} {o : UnOp t} {a : RExpr} (ho : unOp op t = some o) (ha : a.ty = some (.val t)) :
    checkUn op a = some (.val t, a) := by
  cases op <;> simp only [unOp] at ho
  case not =>
    have h := dite_isSome ho
    simp [checkUn, opTy_self ha h, ha]
  case non =>
    have h := dite_isSome ho
    simp [checkUn, opTy_self ha h, ha]
  case parens => simp [checkUn, ha]
  all_goals cases ho

theorem checkArgs_self : ∀ {ps : List RParam} {as : List RExpr},
    List.Forall₂ (fun a p => (∃ t, p.1 = RTy.val t ∧ a.ty = some (.val t)) ∧ (p.2 = true → a.isLit = true)) as ps →
    checkArgs ps as = some as
  | [], _, .nil => rfl
  | (t, l) :: ps, _, .cons (a := a) (l₁ := as) h hs => by
    obtain ⟨⟨t', rfl, ht⟩, hl⟩ := h
    have : (l && !a.isLit) = false := by
      cases l
      · rfl
      · rw [hl rfl]; rfl
    simp [checkArgs, this, tryCast_self ht, checkArgs_self hs]

theorem checkCall_self {ps : List RParam} {as : List RExpr}
    (h : List.Forall₂ (fun a p => (∃ t, p.1 = RTy.val t ∧ a.ty = some (.val t)) ∧ (p.2 = true → a.isLit = true)) as ps) :
    checkCall ps as = some as := by
  unfold checkCall
  rw [if_neg (not_not.2 h.length_eq), checkArgs_self h]

theorem checkCall_plain_self {Γ : Ctx} {ts : List Ty} {as : List RExpr} (h : List.Forall₂ (Rd Γ) as ts) :
    checkCall (plainParams ts) as = some as := by
  apply checkCall_self
  unfold plainParams
  rw [List.forall₂_map_right_iff]
  exact h.imp fun a t h => ⟨⟨t, rfl, h.ty⟩, fun h => by cases h⟩

theorem checkL_self {pre : Bool} {Γ : Ctx} : ∀ {es : List RExpr}, (∀ e ∈ es, check pre false e Γ = some (e, Γ)) →
    checkL pre es Γ = some (es, Γ)
  | [], _ => by simp [checkL]
  | e :: es, h => by
    simp [checkL, h e (.head _), checkL_self fun x hx => h x (.tail _ hx)]

theorem checkLL_self {pre : Bool} {Γ : Ctx} : ∀ {es : List (List RExpr)}, (∀ tr ∈ es, ∀ e ∈ tr, check pre false e Γ = some (e, Γ)) →
    checkLL pre es Γ = some (es, Γ)
  | [], _ => by simp [checkLL]
  | e :: es, h => by
    simp [checkLL, checkL_self (h e (.head _)), checkLL_self fun x hx => h x (.tail _ hx)]

theorem forall₂_of_get {α β : Type*} {R : α → β → Prop} : ∀ {as : List α} {bs : List β} (hl : as.length = bs.length),
    (∀ i : Fin bs.length, R (as.get (i.cast hl.symm)) (bs.get i)) → List.Forall₂ R as bs
  | [], [], _, _ => .nil
  | a :: as, b :: bs, hl, h => .cons (h ⟨0, by simp⟩) (forall₂_of_get (by simpa using hl) fun i => h i.succ)

/-- The second visit of a checked expression changes nothing. -/
theorem Reads.check {pre : Bool} {Γ : Ctx} {e : RExpr} {t : Ty} {E : Expr t} (h : Reads Γ e t E) (hc : e.Caught pre Γ)
    (imp : Bool) : Front.check pre imp e Γ = some (e, Γ) := by
  induction h generalizing imp with
  | @var t x k hx =>
    simp only [RExpr.Caught] at hc
    have : (pre && decide (k = .output)) = false := by
      cases pre
      · rfl
      · rw [Bool.true_and, decide_eq_false_iff_not]
        rintro rfl
        exact hc rfl _ hx
    simp [Front.check, hx, this, finish, RExpr.ty]
  | lit hl => cases hl <;> simp [Front.check, finish, RExpr.ty, litTy]
  | @call f args ins t hf hl as ha ih =>
    simp only [RExpr.Caught] at hc
    have hL : checkL pre args Γ = some (args, Γ) := checkL_self fun e he => by
      obtain ⟨i, hi, rfl⟩ := List.getElem_of_mem he
      exact ih ⟨i, by omega⟩ (caughtL_mem hc _ he) false
    have hA : List.Forall₂ (Rd Γ) args ins := forall₂_of_get hl fun i => ⟨_, ha i⟩
    cases hf with
    | func hf => simp [Front.check, hL, hf, RDecl.isProc, checkCall_plain_self hA, finish, RExpr.ty]
    | select hf =>
      rcases hA with _ | ⟨h1, _ | ⟨h2, _ | _⟩⟩
      simp [Front.check, hL, hf, RDecl.isProc, checkListOp, h1.ty, tryCast_self h2.ty, finish, ty_call]
    | store hf =>
      rcases hA with _ | ⟨h1, _ | ⟨h2, _ | ⟨h3, _ | _⟩⟩⟩
      simp [Front.check, hL, hf, RDecl.isProc, checkListOp, h1.ty, tryCast_self h2.ty, tryCast_self h3.ty, finish, ty_call]
    | len hf =>
      rcases hA with _ | ⟨h1, _ | _⟩
      simp [Front.check, hL, hf, RDecl.isProc, checkListOp, finish, RExpr.ty]
  | ite h1 h2 h3 ih1 ih2 ih3 =>
    simp only [RExpr.Caught] at hc
    simp [Front.check, ih1 hc.1, ih2 hc.2.1, ih3 hc.2.2, tryCast_self h1.ty, tryUnify_self h2.ty h3.ty, finish, RExpr.ty]
  | bin ho h1 h2 ih1 ih2 =>
    simp only [RExpr.Caught] at hc
    simp [Front.check, ih1 hc.1, ih2 hc.2, checkBin_bin ho h1.ty h2.ty, finish, RExpr.ty]
  | rel ho h1 h2 ih1 ih2 =>
    simp only [RExpr.Caught] at hc
    simp [Front.check, ih1 hc.1, ih2 hc.2, checkBin_rel ho h1.ty h2.ty, finish, RExpr.ty]
  | un ho h1 ih1 =>
    simp only [RExpr.Caught] at hc
    simp [Front.check, ih1 hc, checkUn_un ho h1.ty, finish, RExpr.ty]
  | embed h1 ih1 =>
    simp only [RExpr.Caught] at hc
    simp [Front.check, ih1 hc, checkUn, tryCast_self h1.ty, finish, RExpr.ty]
  | iverson h1 ih1 =>
    simp only [RExpr.Caught] at hc
    simp [Front.check, ih1 hc, checkUn, tryCast_self h1.ty, finish, RExpr.ty]
  | cast c h1 ih1 =>
    simp only [RExpr.Caught] at hc
    simp [Front.check, ih1 hc, finish, RExpr.ty]
  | @quant op vs tr a t A hq hl hv T h1 h2 ih1 ih2 =>
    simp only [RExpr.Caught] at hc
    have hL : checkLL pre tr Γ = some (tr, Γ) := checkLL_self fun x hx e he =>
      ih1 x hx e he (caughtL_mem (caughtLL_mem hc.2.1 x hx) e he) false
    have hq' : t = quantTy op := by cases hq <;> rfl
    subst hq'
    simp [Front.check, hL, ih2 hc.2.2, opTy, h2.ty, hc.1, finish, ty_quant]
  | @subst x v a t k X V A hx hi h1 h2 ih1 ih2 =>
    simp only [RExpr.Caught] at hc
    simp [Front.check, ih1 hc.1, ih2 hc.2, letTy, hx, h2.ty, finish, ty_subst]

/-! ## The reading is unique -/

theorem bin_not_rel {op : RBin} {t s : Ty} {o : BinOp t} {o' : RelOp s} (h : binOp op t = some o)
    (h' : relOp op s = some o') : False := by
  cases op <;> first | (simp [relOp] at h'; done) | (simp [binOp] at h; done)

/-- A well-typed tree stands for one expression. -/
theorem Reads.unique {Γ : Ctx} {e : RExpr} {t : Ty} {E : Expr t} (h : Reads Γ e t E) :
    ∀ {t' : Ty} {E' : Expr t'}, Reads Γ e t' E' → (⟨t, E⟩ : (t : Ty) × Expr t) = ⟨t', E'⟩ := by
  induction h with
  | var hx => intro t' E' h'; cases h'; rfl
  | lit hl => intro t' E' h'; cases h' with | lit hl' => cases hl <;> cases hl' <;> rfl
  | @call f args ins t hf hl as ha ih =>
    intro t' E' h'
    cases h' with
    | @call _ _ ins' _ hf' hl' as' ha' =>
      have hi : ins = ins' := by
        have hA : List.Forall₂ (Rd Γ) args ins := forall₂_of_get hl fun i => ⟨_, ha i⟩
        have hA' : List.Forall₂ (Rd Γ) args ins' := forall₂_of_get hl' fun i => ⟨_, ha' i⟩
        clear ha ih ha' hl hl' hf hf' as as'
        induction hA generalizing ins' with
        | nil => cases hA'; rfl
        | cons h1 _ ih =>
          cases hA' with
          | cons h2 h3 =>
            have := h1.ty.symm.trans h2.ty
            cases this
            rw [ih h3]
      subst hi
      have : as = as' := by
        funext i
        have := ih i (ha' i)
        simp only [Sigma.mk.injEq, true_and] at this
        exact eq_of_heq this
      rw [this]
  | ite _ _ _ ih1 ih2 ih3 =>
    intro t' E' h'
    cases h' with
    | ite h1 h2 h3 => cases ih1 h1; cases ih2 h2; cases ih3 h3; rfl
  | bin ho h1 h2 ih1 ih2 =>
    intro t' E' h'
    cases h' with
    | bin ho' h1' h2' =>
      cases ih1 h1'; cases ih2 h2'
      rw [ho] at ho'
      cases ho'
      rfl
    | rel ho' h1' h2' => exact (bin_not_rel ho ho').elim
  | rel ho h1 h2 ih1 ih2 =>
    intro t' E' h'
    cases h' with
    | rel ho' h1' h2' =>
      cases ih1 h1'; cases ih2 h2'
      rw [ho] at ho'
      cases ho'
      rfl
    | bin ho' h1' h2' => exact (bin_not_rel ho' ho).elim
  | un ho h1 ih1 =>
    intro t' E' h'
    cases h' with
    | un ho' h1' =>
      cases ih1 h1'
      rw [ho] at ho'
      cases ho'
      rfl
    | embed h => simp [unOp] at ho
    | iverson h => simp [unOp] at ho
  | embed h1 ih1 =>
    intro t' E' h'
    cases h' with
    | un ho' h1' => simp [unOp] at ho'
    | embed h => cases ih1 h; rfl
  | iverson h1 ih1 =>
    intro t' E' h'
    cases h' with
    | un ho' h1' => simp [unOp] at ho'
    | iverson h => cases ih1 h; rfl
  | cast c h1 ih1 =>
    intro t' E' h'
    cases h' with
    | cast c' h1' =>
      cases ih1 h1'
      cases c <;> cases c' <;> rfl
  | quant hq hl hv T h1 h2 ih1 ih2 =>
    intro t' E' h'
    cases h' with
    | quant hq' hl' hv' T' h1' h2' => cases ih2 h2'; rfl
  | @subst x v a t k X V A hx hi h1 h2 ih1 ih2 =>
    intro t' E' h'
    cases h' with
    | @subst _ _ _ _ k' X' V' A' hx' hi' h1' h2' =>
      obtain ⟨xi, xt⟩ := X
      obtain ⟨xi', xt'⟩ := X'
      simp only at hi hi' hx hx'
      subst hi
      subst hi'
      rw [hx] at hx'
      cases hx'
      cases ih1 h1'
      cases ih2 h2'
      rfl

end Front
end Caesar
