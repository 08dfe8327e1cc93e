import Verif.Front.Tycheck
import Verif.Front.Reads
import Verif.Front.Scoped
import Mathlib.Data.List.Forall2

/-!
# What type checking leaves alone

The type checker changes the declarations only by giving types to variables of `let`, and it changes trees only by adding annotations and
casts.
-/

namespace Caesar
namespace Front

/-- `Γ'` is `Γ` where some variables without a type got one. -/
def Ext (Γ Γ' : Ctx) : Prop := ∀ x, Γ' x = Γ x ∨ ∃ k t, Γ x = some (.var .none k) ∧ Γ' x = some (.var t k)

theorem Ext.refl (Γ : Ctx) : Ext Γ Γ := fun _ => Or.inl rfl

theorem Ext.trans {Γ₁ Γ₂ Γ₃ : Ctx} (h : Ext Γ₁ Γ₂) (h' : Ext Γ₂ Γ₃) : Ext Γ₁ Γ₃ := by
  intro x
  rcases h x with h1 | ⟨k, t, h1, h2⟩
  · rcases h' x with h3 | ⟨k', t', h3, h4⟩
    · exact Or.inl (h3.trans h1)
    · exact Or.inr ⟨k', t', h1 ▸ h3, h4⟩
  · rcases h' x with h3 | ⟨k', t', h3, h4⟩
    · exact Or.inr ⟨k, t, h1, h3.trans h2⟩
    · rw [h2] at h3
      cases h3
      exact Or.inr ⟨k, t', h1, h4⟩

theorem finish_some {t : RTy} {e e' : RExpr} (h : finish t e = some e') : e' = e.setTy t := by
  unfold finish at h
  split at h
  · rename_i t' ht
    split at h
    · rename_i hh
      cases h
      subst hh
      cases e <;> simp_all [RExpr.ty, RExpr.setTy]
    · cases h
  · cases h; rfl

theorem setTy_ty (t : RTy) (e : RExpr) : (e.setTy t).ty = some t := by cases e <;> rfl

theorem setTy_strip (t : RTy) (e : RExpr) : (e.setTy t).strip = e.strip := by cases e <;> simp [RExpr.setTy, RExpr.strip]

theorem tryCast_some {t : RTy} {e e' : RExpr} (h : tryCast t e = some e') :
    ∃ s, e.ty = some s ∧ ((t.partialCmp s = some .eq ∧ e' = e) ∨ (t.partialCmp s = some .gt ∧ e' = .cast (some t) e)) := by
  unfold tryCast at h
  cases hs : e.ty with
  | none => rw [hs] at h; cases h
  | some s =>
    rw [hs] at h
    refine ⟨s, rfl, ?_⟩
    simp only [Option.bind_eq_bind, Option.bind_some] at h
    split at h
    · rename_i hc; cases h; exact Or.inl ⟨hc, rfl⟩
    · rename_i hc; cases h; exact Or.inr ⟨hc, rfl⟩
    · cases h

theorem tryCast_strip {t : RTy} {e e' : RExpr} (h : tryCast t e = some e') : e'.strip = e.strip := by
  obtain ⟨s, -, ⟨-, rfl⟩ | ⟨-, rfl⟩⟩ := tryCast_some h
  · rfl
  · simp [RExpr.strip]

theorem tryUnify_some {a b a' b' : RExpr} {u : RTy} (h : tryUnify a b = some (u, a', b')) :
    ∃ s t, a.ty = some s ∧ b.ty = some t ∧
      ((s.partialCmp t = some .eq ∧ u = s ∧ a' = a ∧ b' = b) ∨
       (s.partialCmp t = some .lt ∧ u = t ∧ a' = .cast (some t) a ∧ b' = b) ∨
       (s.partialCmp t = some .gt ∧ u = s ∧ a' = a ∧ b' = .cast (some s) b)) := by
  unfold tryUnify at h
  cases hs : a.ty with
  | none => rw [hs] at h; cases h
  | some s =>
    cases ht : b.ty with
    | none => rw [hs, ht] at h; cases h
    | some t =>
      rw [hs, ht] at h
      refine ⟨s, t, rfl, rfl, ?_⟩
      simp only [Option.bind_eq_bind, Option.bind_some] at h
      split at h
      · rename_i hc; cases h; exact Or.inl ⟨hc, rfl, rfl, rfl⟩
      · rename_i hc; cases h; exact Or.inr (Or.inl ⟨hc, rfl, rfl, rfl⟩)
      · rename_i hc; cases h; exact Or.inr (Or.inr ⟨hc, rfl, rfl, rfl⟩)
      · cases h

theorem tryUnify_strip {a b a' b' : RExpr} {u : RTy} (h : tryUnify a b = some (u, a', b')) :
    a'.strip = a.strip ∧ b'.strip = b.strip := by
  obtain ⟨s, t, -, -, ⟨-, -, rfl, rfl⟩ | ⟨-, -, rfl, rfl⟩ | ⟨-, -, rfl, rfl⟩⟩ := tryUnify_some h <;> simp [RExpr.strip]

theorem checkArgs_strip : ∀ {ps : List RParam} {as as' : List RExpr}, checkArgs ps as = some as' → stripL as' = stripL as
  | [], as, as', h => by
    have : as = as' := by cases as <;> · simp only [checkArgs, Option.some.injEq] at h; exact h
    rw [this]
  | _ :: _, [], as', h => by simp only [checkArgs, Option.some.injEq] at h; rw [h]
  | (t, l) :: ps, a :: as, as', h => by
    simp only [checkArgs, Option.bind_eq_bind] at h
    split at h
    · simp at h
    · simp only [Option.bind_eq_some_iff, Option.pure_def, Option.some.injEq] at h
      obtain ⟨a', ha, as'', has, rfl⟩ := h
      simp only [stripL, tryCast_strip ha, checkArgs_strip has]

theorem checkCall_strip {ps : List RParam} {as as' : List RExpr} (h : checkCall ps as = some as') : stripL as' = stripL as := by
  unfold checkCall at h
  split at h
  · cases h
  · exact checkArgs_strip h

theorem checkListOp_strip {k : ListOp} {as as' : List RExpr} {t : RTy} (h : checkListOp k as = some (as', t)) :
    stripL as' = stripL as := by
  unfold checkListOp at h
  split at h
  · split at h
    · simp only [Option.bind_eq_bind, Option.bind_eq_some_iff, Option.pure_def, Option.some.injEq, Prod.mk.injEq] at h
      obtain ⟨i, hi, rfl, rfl⟩ := h
      simp only [stripL, tryCast_strip hi]
    · cases h
  · split at h
    · simp only [Option.bind_eq_bind, Option.bind_eq_some_iff, Option.pure_def, Option.some.injEq, Prod.mk.injEq] at h
      obtain ⟨i, hi, v, hv, rfl, rfl⟩ := h
      simp only [stripL, tryCast_strip hi, tryCast_strip hv]
    · cases h
  · cases h; rfl
  · cases h

theorem checkDiv_strip {a b a' b' : RExpr} {u : RTy} (h : checkDiv a b = some (u, a', b')) :
    a'.strip = a.strip ∧ b'.strip = b.strip := by
  have key : ∀ (t : RTy) (e : RExpr), ((tryCast t e).getD e).strip = e.strip := by
    intro t e
    cases he : tryCast t e with
    | none => rfl
    | some e' => exact tryCast_strip he
  unfold checkDiv at h
  simp only at h
  split at h
  · simp only [Option.some.injEq, Prod.mk.injEq] at h
    obtain ⟨-, rfl, rfl⟩ := h
    exact ⟨key _ _, key _ _⟩
  · simp only [Option.bind_eq_bind, Option.bind_eq_some_iff, Option.pure_def, Option.some.injEq, Prod.mk.injEq] at h
    obtain ⟨x, hx, y, hy, -, rfl, rfl⟩ := h
    exact ⟨(tryCast_strip hx).trans (key _ _), (tryCast_strip hy).trans (key _ _)⟩

theorem checkBin_strip {op : RBin} {a b a' b' : RExpr} {u : RTy} (h : checkBin op a b = some (u, a', b')) :
    a'.strip = a.strip ∧ b'.strip = b.strip := by
  unfold checkBin at h
  cases op <;>
    simp only [Option.bind_eq_bind, Option.bind_eq_some_iff, Option.pure_def, Option.some.injEq, Prod.mk.injEq, Prod.exists] at h
  case div => exact checkDiv_strip h
  case and => obtain ⟨-, -, -, -, -, rfl, rfl⟩ := h; exact ⟨rfl, rfl⟩
  case or => obtain ⟨-, -, -, -, -, rfl, rfl⟩ := h; exact ⟨rfl, rfl⟩
  case eq => obtain ⟨_, _, _, h, -, rfl, rfl⟩ := h; exact tryUnify_strip h
  case ne => obtain ⟨_, _, _, h, -, rfl, rfl⟩ := h; exact tryUnify_strip h
  case lt => obtain ⟨-, -, -, -, _, _, _, h, -, rfl, rfl⟩ := h; exact tryUnify_strip h
  case le => obtain ⟨-, -, -, -, _, _, _, h, -, rfl, rfl⟩ := h; exact tryUnify_strip h
  case ge => obtain ⟨-, -, -, -, _, _, _, h, -, rfl, rfl⟩ := h; exact tryUnify_strip h
  case gt => obtain ⟨-, -, -, -, _, _, _, h, -, rfl, rfl⟩ := h; exact tryUnify_strip h
  all_goals
    obtain ⟨-, -, -, -, h⟩ := h
    exact tryUnify_strip h

theorem checkUn_strip {op : RUn} {a a' : RExpr} {u : RTy} (h : checkUn op a = some (u, a')) : a'.strip = a.strip := by
  unfold checkUn at h
  cases op <;>
    simp only [Option.bind_eq_bind, Option.bind_eq_some_iff, Option.pure_def, Option.some.injEq, Prod.mk.injEq] at h
  case not => obtain ⟨-, -, -, -, -, rfl⟩ := h; rfl
  case non => obtain ⟨-, -, -, -, -, rfl⟩ := h; rfl
  case embed => obtain ⟨x, hx, -, rfl⟩ := h; exact tryCast_strip hx
  case iverson => obtain ⟨x, hx, -, rfl⟩ := h; exact tryCast_strip hx
  case parens => obtain ⟨-, -, -, rfl⟩ := h; rfl

/-- The declarations change for the variables in `xs` only, and only from no type to a type. -/
def Frame (xs : List Ident) (Γ Γ' : Ctx) : Prop := Ext Γ Γ' ∧ ∀ x, x ∉ xs → Γ' x = Γ x

theorem Frame.refl (Γ : Ctx) : Frame [] Γ Γ := ⟨.refl _, fun _ _ => rfl⟩

theorem Frame.append {xs ys : List Ident} {Γ₁ Γ₂ Γ₃ : Ctx} (h : Frame xs Γ₁ Γ₂) (h' : Frame ys Γ₂ Γ₃) :
    Frame (xs ++ ys) Γ₁ Γ₃ :=
  ⟨h.1.trans h'.1, fun x hx => by
    rw [List.mem_append, not_or] at hx
    rw [h'.2 x hx.2, h.2 x hx.1]⟩

theorem letTy_frame {x : Ident} {v : RExpr} {Γ Γ' : Ctx} (h : letTy x v Γ = some Γ') : Frame [x] Γ Γ' := by
  unfold letTy at h
  split at h
  · rename_i k hk
    simp only [Option.bind_eq_bind, Option.bind_eq_some_iff, Option.pure_def, Option.some.injEq] at h
    obtain ⟨t, -, rfl⟩ := h
    constructor
    · intro y
      by_cases hy : y = x
      · subst hy
        exact Or.inr ⟨k, t, hk, by rw [Function.update_self]⟩
      · exact Or.inl (by rw [Function.update_of_ne hy])
    · intro y hy
      rw [List.mem_singleton] at hy
      rw [Function.update_of_ne hy]
  · cases h; exact ⟨.refl _, fun _ _ => rfl⟩
  · cases h

mutual

theorem check_frame (pre : Bool) : ∀ (e : RExpr) {imp : Bool} {Γ Γ' : Ctx} {e' : RExpr}, check pre imp e Γ = some (e', Γ') →
    Frame e.lets Γ Γ' ∧ e'.strip = e.strip
  | .var ty x, imp, Γ, Γ', e', h => by
    simp only [check] at h
    split at h
    · split at h
      · cases h
      · simp only [Option.bind_eq_bind, Option.bind_eq_some_iff, Option.pure_def, Option.some.injEq, Prod.mk.injEq] at h
        obtain ⟨e, he, rfl, rfl⟩ := h
        rw [finish_some he, setTy_strip]
        exact ⟨Frame.refl _, rfl⟩
    · cases h
  | .call ty f args, imp, Γ, Γ', e', h => by
    simp only [check, Option.bind_eq_bind, Option.bind_eq_some_iff, Prod.exists] at h
    obtain ⟨args', Γ₁, hL, d, hd, h⟩ := h
    obtain ⟨hF, hS⟩ := checkL_frame pre args hL
    split at h
    · simp at h
    cases d <;>
      simp only [Option.bind_eq_some_iff, Option.pure_def, Option.some.injEq, Prod.mk.injEq, Prod.exists, reduceCtorEq] at h
    case proc =>
      obtain ⟨as, has, e, he, rfl, rfl⟩ := h
      rw [finish_some he, setTy_strip]
      exact ⟨hF, by simp only [RExpr.strip, checkCall_strip has, hS]⟩
    case func =>
      obtain ⟨as, has, e, he, rfl, rfl⟩ := h
      rw [finish_some he, setTy_strip]
      exact ⟨hF, by simp only [RExpr.strip, checkCall_strip has, hS]⟩
    case dist =>
      obtain ⟨as, has, e, he, rfl, rfl⟩ := h
      rw [finish_some he, setTy_strip]
      exact ⟨hF, by simp only [RExpr.strip, checkCall_strip has, hS]⟩
    case listOp =>
      obtain ⟨as, t, has, e, he, rfl, rfl⟩ := h
      rw [finish_some he, setTy_strip]
      exact ⟨hF, by simp only [RExpr.strip, checkListOp_strip has, hS]⟩
  | .ite ty c a b, imp, Γ, Γ', e', h => by
    simp only [check, Option.bind_eq_bind, Option.bind_eq_some_iff, Prod.exists, Option.pure_def, Option.some.injEq,
      Prod.mk.injEq] at h
    obtain ⟨c', Γ₁, hc, a', Γ₂, ha, b', Γ₃, hb, c'', hcc, t, a'', b'', hab, e, he, rfl, rfl⟩ := h
    obtain ⟨hF, hS⟩ := check_frame pre c hc
    obtain ⟨hF₂, hS₂⟩ := check_frame pre a ha
    obtain ⟨hF₃, hS₃⟩ := check_frame pre b hb
    rw [finish_some he, setTy_strip]
    refine ⟨hF.append (hF₂.append hF₃), ?_⟩
    simp only [RExpr.strip, tryCast_strip hcc, tryUnify_strip hab, hS, hS₂, hS₃]
  | .bin ty op a b, imp, Γ, Γ', e', h => by
    simp only [check, Option.bind_eq_bind, Option.bind_eq_some_iff, Prod.exists, Option.pure_def, Option.some.injEq,
      Prod.mk.injEq] at h
    obtain ⟨a', Γ₂, ha, b', Γ₃, hb, t, a'', b'', hab, e, he, rfl, rfl⟩ := h
    obtain ⟨hF₂, hS₂⟩ := check_frame pre a ha
    obtain ⟨hF₃, hS₃⟩ := check_frame pre b hb
    rw [finish_some he, setTy_strip]
    refine ⟨hF₂.append hF₃, ?_⟩
    simp only [RExpr.strip, checkBin_strip hab, hS₂, hS₃]
  | .un ty op a, imp, Γ, Γ', e', h => by
    simp only [check, Option.bind_eq_bind, Option.bind_eq_some_iff, Prod.exists, Option.pure_def, Option.some.injEq,
      Prod.mk.injEq] at h
    obtain ⟨a', Γ₂, ha, t, a'', hab, e, he, rfl, rfl⟩ := h
    obtain ⟨hF₂, hS₂⟩ := check_frame pre a ha
    rw [finish_some he, setTy_strip]
    refine ⟨hF₂, ?_⟩
    simp only [RExpr.strip, checkUn_strip hab, hS₂]
  | .cast ty a, imp, Γ, Γ', e', h => by
    simp only [check, Option.bind_eq_bind, Option.bind_eq_some_iff, Prod.exists, Option.pure_def, Option.some.injEq,
      Prod.mk.injEq] at h
    obtain ⟨a', Γ₂, ha, t, -, e, he, rfl, rfl⟩ := h
    obtain ⟨hF₂, hS₂⟩ := check_frame pre a ha
    rw [finish_some he, setTy_strip]
    exact ⟨hF₂, by simp only [RExpr.strip, hS₂]⟩
  | .quant ty op vs tr a, imp, Γ, Γ', e', h => by
    simp only [check, Option.bind_eq_bind, Option.bind_eq_some_iff, Prod.exists] at h
    obtain ⟨tr', Γ₁, ht, a', Γ₂, ha, -, -, h⟩ := h
    split at h
    · simp at h
    simp only [Option.bind_eq_some_iff, Option.pure_def, Option.some.injEq, Prod.mk.injEq] at h
    obtain ⟨e, he, rfl, rfl⟩ := h
    obtain ⟨hF, hS⟩ := checkLL_frame pre tr ht
    obtain ⟨hF₂, hS₂⟩ := check_frame pre a ha
    rw [finish_some he, setTy_strip]
    exact ⟨hF.append hF₂, by simp only [RExpr.strip, hS, hS₂]⟩
  | .subst ty x v a, imp, Γ, Γ', e', h => by
    simp only [check, Option.bind_eq_bind, Option.bind_eq_some_iff, Prod.exists, Option.pure_def, Option.some.injEq,
      Prod.mk.injEq] at h
    obtain ⟨v', Γ₁, hv, Γ₂, hx, a', Γ₃, ha, t, -, e, he, rfl, rfl⟩ := h
    obtain ⟨hF, hS⟩ := check_frame pre v hv
    obtain ⟨hF₂, hS₂⟩ := check_frame pre a ha
    rw [finish_some he, setTy_strip]
    refine ⟨?_, by simp only [RExpr.strip, hS, hS₂]⟩
    exact hF.append ((letTy_frame hx).append hF₂)
  | .lit ty l, imp, Γ, Γ', e', h => by
    simp only [check, Option.bind_eq_bind, Option.bind_eq_some_iff, Option.pure_def, Option.some.injEq, Prod.mk.injEq] at h
    obtain ⟨e, he, rfl, rfl⟩ := h
    rw [finish_some he, setTy_strip]
    exact ⟨Frame.refl _, rfl⟩

theorem checkL_frame (pre : Bool) : ∀ (es : List RExpr) {Γ Γ' : Ctx} {es' : List RExpr}, checkL pre es Γ = some (es', Γ') →
    Frame (letsL es) Γ Γ' ∧ stripL es' = stripL es
  | [], Γ, Γ', es', h => by
    simp only [checkL, Option.some.injEq, Prod.mk.injEq] at h
    obtain ⟨rfl, rfl⟩ := h
    exact ⟨Frame.refl _, rfl⟩
  | e :: es, Γ, Γ', es', h => by
    simp only [checkL, Option.bind_eq_bind, Option.bind_eq_some_iff, Prod.exists, Option.pure_def, Option.some.injEq,
      Prod.mk.injEq] at h
    obtain ⟨e', Γ₁, he, es'', Γ₂, hes, rfl, rfl⟩ := h
    obtain ⟨hF, hS⟩ := check_frame pre e he
    obtain ⟨hF₂, hS₂⟩ := checkL_frame pre es hes
    exact ⟨hF.append hF₂, by simp only [stripL, hS, hS₂]⟩

theorem checkLL_frame (pre : Bool) : ∀ (es : List (List RExpr)) {Γ Γ' : Ctx} {es' : List (List RExpr)},
    checkLL pre es Γ = some (es', Γ') → Frame (letsLL es) Γ Γ' ∧ stripLL es' = stripLL es
  | [], Γ, Γ', es', h => by
    simp only [checkLL, Option.some.injEq, Prod.mk.injEq] at h
    obtain ⟨rfl, rfl⟩ := h
    exact ⟨Frame.refl _, rfl⟩
  | e :: es, Γ, Γ', es', h => by
    simp only [checkLL, Option.bind_eq_bind, Option.bind_eq_some_iff, Prod.exists, Option.pure_def, Option.some.injEq,
      Prod.mk.injEq] at h
    obtain ⟨e', Γ₁, he, es'', Γ₂, hes, rfl, rfl⟩ := h
    obtain ⟨hF, hS⟩ := checkL_frame pre e he
    obtain ⟨hF₂, hS₂⟩ := checkLL_frame pre es hes
    exact ⟨hF.append hF₂, by simp only [stripLL, hS, hS₂]⟩

end

end Front
end Caesar
