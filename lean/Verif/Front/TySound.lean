import Verif.Front.TyFrame
import Verif.Props.C49

/-!
# Type checking of expressions is sound
-/

namespace Caesar
namespace Front

/-- `e` is well typed with type `t`. -/
def Rd (Γ : Ctx) (e : RExpr) (t : Ty) : Prop := ∃ E : Expr t, Reads Γ e t E

theorem Reads.ty {Γ : Ctx} {e : RExpr} {t : Ty} {E : Expr t} (h : Reads Γ e t E) : e.ty = some (.val t) := by
  cases h <;> rfl

theorem Rd.ty {Γ : Ctx} {e : RExpr} {t : Ty} (h : Rd Γ e t) : e.ty = some (.val t) := h.elim fun _ h => h.ty

theorem Ext.val {Γ Γ' : Ctx} (h : Ext Γ Γ') {x : Ident} {t : Ty} {k : VarKind} (hx : Γ x = some (.var (.val t) k)) :
    Γ' x = some (.var (.val t) k) := by
  rcases h x with h1 | ⟨k', t', h1, -⟩
  · exact h1.trans hx
  · rw [hx] at h1; cases h1

theorem Ext.decl {Γ Γ' : Ctx} (h : Ext Γ Γ') {x : Ident} {d : RDecl} (hd : ∀ k, d ≠ .var .none k) (hx : Γ x = some d) :
    Γ' x = some d := by
  rcases h x with h1 | ⟨k', t', h1, -⟩
  · exact h1.trans hx
  · rw [hx] at h1; cases h1; exact absurd rfl (hd _)

theorem Ext.back {Γ Γ' : Ctx} (h : Ext Γ Γ') {x : Ident} {d : RDecl} (hd : ∀ t k, d ≠ .var t k) (hx : Γ' x = some d) :
    Γ x = some d := by
  rcases h x with h1 | ⟨k', t', -, h1⟩
  · exact h1.symm.trans hx
  · rw [hx] at h1; cases h1; exact absurd rfl (hd _ _)

theorem CallTy.ext {Γ Γ' : Ctx} (h : Ext Γ Γ') {f : Ident} {ins : List Ty} {t : Ty} (hf : CallTy Γ f ins t) :
    CallTy Γ' f ins t := by
  cases hf with
  | func hf => exact .func (h.decl (by simp) hf)
  | select hf => exact .select (h.decl (by simp) hf)
  | store hf => exact .store (h.decl (by simp) hf)
  | len hf => exact .len (h.decl (by simp) hf)

theorem Reads.ext {Γ Γ' : Ctx} (h : Ext Γ Γ') {e : RExpr} {t : Ty} {E : Expr t} (hr : Reads Γ e t E) : Reads Γ' e t E := by
  induction hr with
  | var hx => exact .var (h.val hx)
  | lit hl => exact .lit hl
  | call hf hl as _ ih => exact .call (hf.ext h) hl as ih
  | ite _ _ _ ih ih' ih'' => exact .ite ih ih' ih''
  | bin ho _ _ ih ih' => exact .bin ho ih ih'
  | rel ho _ _ ih ih' => exact .rel ho ih ih'
  | un ho _ ih => exact .un ho ih
  | embed _ ih => exact .embed ih
  | iverson _ ih => exact .iverson ih
  | cast c _ ih => exact .cast c ih
  | quant hq hl hv T _ _ ih ih' =>
    exact .quant hq hl (fun v hm => (hv v hm).elim fun k hk => ⟨k, h.val hk⟩) T ih ih'
  | subst hx hi _ _ ih ih' => exact .subst (h.val hx) hi ih ih'

theorem Rd.ext {Γ Γ' : Ctx} (h : Ext Γ Γ') {e : RExpr} {t : Ty} (hr : Rd Γ e t) : Rd Γ' e t :=
  hr.elim fun E hE => ⟨E, hE.ext h⟩

/-! ## Casts -/

theorem partialCmp_val {T : RTy} {s : Ty} {o : Ordering} (h : T.partialCmp (.val s) = some o) :
    ∃ t, T = .val t ∧ t.partialCmp s = some o := by
  cases T with
  | val t => exact ⟨t, rfl, h⟩
  | tuple ts => simp [RTy.partialCmp] at h
  | string => simp [RTy.partialCmp] at h
  | none => simp [RTy.partialCmp] at h

theorem Rd.cast {Γ : Ctx} {e : RExpr} {s t : Ty} (hl : s.less t = true) (h : Rd Γ e s) :
    Rd Γ (.cast (some (.val t)) e) t :=
  h.elim fun _ hE => ⟨_, .cast (castOp s t hl) hE⟩

theorem tryCast_rd {Γ : Ctx} {T : RTy} {e e' : RExpr} {s : Ty} (h : Rd Γ e s) (hcast : tryCast T e = some e') :
    ∃ t, T = .val t ∧ Rd Γ e' t := by
  obtain ⟨s', hs, hc⟩ := tryCast_some hcast
  rw [h.ty] at hs
  cases hs
  rcases hc with ⟨hc, rfl⟩ | ⟨hc, rfl⟩
  · obtain ⟨t, rfl, ht⟩ := partialCmp_val hc
    rw [partialCmp_eq] at ht
    subst ht
    exact ⟨_, rfl, h⟩
  · obtain ⟨t, rfl, ht⟩ := partialCmp_val hc
    rw [partialCmp_gt] at ht
    exact ⟨t, rfl, h.cast ht⟩

theorem tryCast_rd' {Γ : Ctx} {t : Ty} {e e' : RExpr} {s : Ty} (h : Rd Γ e s) (hc : tryCast (.val t) e = some e') :
    Rd Γ e' t := by
  obtain ⟨t', ht, h⟩ := tryCast_rd h hc
  cases ht
  exact h

theorem tryUnify_rd {Γ : Ctx} {a b a' b' : RExpr} {s t : Ty} {u : RTy} (ha : Rd Γ a s) (hb : Rd Γ b t)
    (h : tryUnify a b = some (u, a', b')) : ∃ v, u = .val v ∧ (v = s ∨ v = t) ∧ Rd Γ a' v ∧ Rd Γ b' v := by
  obtain ⟨s', t', hs, ht, h⟩ := tryUnify_some h
  rw [ha.ty] at hs
  rw [hb.ty] at ht
  cases hs
  cases ht
  rcases h with ⟨hc, rfl, rfl, rfl⟩ | ⟨hc, rfl, rfl, rfl⟩ | ⟨hc, rfl, rfl, rfl⟩
  · have : s = t := partialCmp_eq.1 hc
    subst this
    exact ⟨s, rfl, Or.inl rfl, ha, hb⟩
  · exact ⟨t, rfl, Or.inr rfl, ha.cast (partialCmp_lt.1 hc), hb⟩
  · exact ⟨s, rfl, Or.inl rfl, ha, hb.cast (partialCmp_gt.1 hc)⟩

theorem opTy_rd {Γ : Ctx} {p : Ty → Bool} {a : RExpr} {s : Ty} {u : Unit} (ha : Rd Γ a s) (h : opTy p a = some u) :
    p s = true := by
  unfold opTy at h
  rw [ha.ty] at h
  simp only at h
  split at h
  · assumption
  · cases h

/-! ## Operators -/

theorem Rd.bin {Γ : Ctx} {op : RBin} {a b : RExpr} {t : Ty} (ho : (binOp op t).isSome = true) (ha : Rd Γ a t) (hb : Rd Γ b t) :
    Rd Γ (.bin (some (.val t)) op a b) t := by
  obtain ⟨A, hA⟩ := ha
  obtain ⟨B, hB⟩ := hb
  obtain ⟨o, ho⟩ := Option.isSome_iff_exists.1 ho
  exact ⟨_, .bin ho hA hB⟩

theorem Rd.rel {Γ : Ctx} {op : RBin} {a b : RExpr} {t : Ty} (ho : (relOp op t).isSome = true) (ha : Rd Γ a t) (hb : Rd Γ b t) :
    Rd Γ (.bin (some (.val .bool)) op a b) .bool := by
  obtain ⟨A, hA⟩ := ha
  obtain ⟨B, hB⟩ := hb
  obtain ⟨o, ho⟩ := Option.isSome_iff_exists.1 ho
  exact ⟨_, .rel ho hA hB⟩

theorem checkDiv_rd {Γ : Ctx} {a b a' b' : RExpr} {s t : Ty} {u : RTy} (ha : Rd Γ a s) (hb : Rd Γ b t)
    (h : checkDiv a b = some (u, a', b')) : ∃ v, u = .val v ∧ v.isFrac = true ∧ Rd Γ a' v ∧ Rd Γ b' v := by
  have key : ∀ {e : RExpr} {s : Ty}, Rd Γ e s → ∃ s', Rd Γ ((tryCast (.val .ureal) e).getD e) s' := by
    intro e s he
    cases hc : tryCast (.val .ureal) e with
    | none => exact ⟨s, he⟩
    | some e' => exact ⟨_, tryCast_rd' he hc⟩
  unfold checkDiv at h
  simp only at h
  split at h
  · rename_i hc
    rw [Bool.and_eq_true] at hc
    obtain ⟨a₁, ha₁⟩ := Option.isSome_iff_exists.1 hc.1
    obtain ⟨b₁, hb₁⟩ := Option.isSome_iff_exists.1 hc.2
    rw [ha₁, hb₁] at h
    simp only [Option.getD_some, Option.some.injEq, Prod.mk.injEq] at h
    obtain ⟨rfl, rfl, rfl⟩ := h
    exact ⟨_, rfl, rfl, tryCast_rd' ha ha₁, tryCast_rd' hb hb₁⟩
  · simp only [Option.bind_eq_bind, Option.bind_eq_some_iff, Option.pure_def, Option.some.injEq, Prod.mk.injEq] at h
    obtain ⟨x, hx, y, hy, rfl, rfl, rfl⟩ := h
    obtain ⟨s', hs'⟩ := key ha
    obtain ⟨t', ht'⟩ := key hb
    exact ⟨_, rfl, rfl, tryCast_rd' hs' hx, tryCast_rd' ht' hy⟩

theorem checkBin_rd {Γ : Ctx} {op : RBin} {a b a' b' : RExpr} {s t : Ty} {u : RTy} (ha : Rd Γ a s) (hb : Rd Γ b t)
    (h : checkBin op a b = some (u, a', b')) : ∃ v, u = .val v ∧ Rd Γ (.bin (some u) op a' b') v := by
  unfold checkBin at h
  have key : ∀ {p : Ty → Bool} {x y : Unit}, opTy p a = some x → opTy p b = some y → tryUnify a b = some (u, a', b') →
      ∃ v, u = .val v ∧ p v = true ∧ Rd Γ a' v ∧ Rd Γ b' v := by
    intro p x y hx hy hu
    obtain ⟨v, rfl, hv, h1, h2⟩ := tryUnify_rd ha hb hu
    refine ⟨v, rfl, ?_, h1, h2⟩
    rcases hv with rfl | rfl
    · exact opTy_rd ha hx
    · exact opTy_rd hb hy
  cases op <;>
    simp only [Option.bind_eq_bind, Option.bind_eq_some_iff, Option.pure_def, Option.some.injEq, Prod.mk.injEq, Prod.exists] at h
  case add =>
    obtain ⟨_, hx, _, hy, h⟩ := h
    obtain ⟨v, rfl, hv, h1, h2⟩ := key hx hy h
    exact ⟨v, rfl, .bin (by simp [binOp, hv]) h1 h2⟩
  case sub =>
    obtain ⟨_, hx, _, hy, h⟩ := h
    obtain ⟨v, rfl, hv, h1, h2⟩ := key hx hy h
    exact ⟨v, rfl, .bin (by simp [binOp, hv]) h1 h2⟩
  case mul =>
    obtain ⟨_, hx, _, hy, h⟩ := h
    obtain ⟨v, rfl, hv, h1, h2⟩ := key hx hy h
    exact ⟨v, rfl, .bin (by simp [binOp, hv]) h1 h2⟩
  case div =>
    obtain ⟨v, rfl, hv, h1, h2⟩ := checkDiv_rd ha hb h
    exact ⟨v, rfl, .bin (by simp [binOp, hv]) h1 h2⟩
  case mod =>
    obtain ⟨_, hx, _, hy, h⟩ := h
    obtain ⟨v, rfl, hv, h1, h2⟩ := key hx hy h
    exact ⟨v, rfl, .bin (by simp [binOp, hv]) h1 h2⟩
  case and =>
    obtain ⟨_, hx, _, hy, rfl, rfl, rfl⟩ := h
    have h1 := opTy_rd ha hx
    have h2 := opTy_rd hb hy
    cases s <;> first | (cases h1; done) | skip
    cases t <;> first | (cases h2; done) | skip
    exact ⟨_, rfl, .bin rfl ha hb⟩
  case or =>
    obtain ⟨_, hx, _, hy, rfl, rfl, rfl⟩ := h
    have h1 := opTy_rd ha hx
    have h2 := opTy_rd hb hy
    cases s <;> first | (cases h1; done) | skip
    cases t <;> first | (cases h2; done) | skip
    exact ⟨_, rfl, .bin rfl ha hb⟩
  case eq =>
    obtain ⟨w, _, _, h, rfl, rfl, rfl⟩ := h
    obtain ⟨v, rfl, -, h1, h2⟩ := tryUnify_rd ha hb h
    exact ⟨_, rfl, .rel rfl h1 h2⟩
  case ne =>
    obtain ⟨w, _, _, h, rfl, rfl, rfl⟩ := h
    obtain ⟨v, rfl, -, h1, h2⟩ := tryUnify_rd ha hb h
    exact ⟨_, rfl, .rel rfl h1 h2⟩
  case lt =>
    obtain ⟨_, hx, _, hy, w, _, _, h, rfl, rfl, rfl⟩ := h
    obtain ⟨v, rfl, hv, h1, h2⟩ := tryUnify_rd ha hb h
    have : v.isNum = true := hv.elim (fun h => h ▸ opTy_rd ha hx) (fun h => h ▸ opTy_rd hb hy)
    exact ⟨_, rfl, .rel (by simp [relOp, this]) h1 h2⟩
  case le =>
    obtain ⟨_, hx, _, hy, w, _, _, h, rfl, rfl, rfl⟩ := h
    obtain ⟨v, rfl, hv, h1, h2⟩ := tryUnify_rd ha hb h
    have : v.isNum = true := hv.elim (fun h => h ▸ opTy_rd ha hx) (fun h => h ▸ opTy_rd hb hy)
    exact ⟨_, rfl, .rel (by simp [relOp, this]) h1 h2⟩
  case ge =>
    obtain ⟨_, hx, _, hy, w, _, _, h, rfl, rfl, rfl⟩ := h
    obtain ⟨v, rfl, hv, h1, h2⟩ := tryUnify_rd ha hb h
    have : v.isNum = true := hv.elim (fun h => h ▸ opTy_rd ha hx) (fun h => h ▸ opTy_rd hb hy)
    exact ⟨_, rfl, .rel (by simp [relOp, this]) h1 h2⟩
  case gt =>
    obtain ⟨_, hx, _, hy, w, _, _, h, rfl, rfl, rfl⟩ := h
    obtain ⟨v, rfl, hv, h1, h2⟩ := tryUnify_rd ha hb h
    have : v.isNum = true := hv.elim (fun h => h ▸ opTy_rd ha hx) (fun h => h ▸ opTy_rd hb hy)
    exact ⟨_, rfl, .rel (by simp [relOp, this]) h1 h2⟩
  case inf =>
    obtain ⟨_, hx, _, hy, h⟩ := h
    obtain ⟨v, rfl, hv, h1, h2⟩ := key hx hy h
    exact ⟨v, rfl, .bin (by simp [binOp, hv]) h1 h2⟩
  case sup =>
    obtain ⟨_, hx, _, hy, h⟩ := h
    obtain ⟨v, rfl, hv, h1, h2⟩ := key hx hy h
    exact ⟨v, rfl, .bin (by simp [binOp, hv]) h1 h2⟩
  all_goals
    obtain ⟨_, hx, _, hy, h⟩ := h
    obtain ⟨v, rfl, hv, h1, h2⟩ := key hx hy h
    exact ⟨v, rfl, .bin (by simp [binOp, hv]) h1 h2⟩

theorem checkUn_rd {Γ : Ctx} {op : RUn} {a a' : RExpr} {s : Ty} {u : RTy} (ha : Rd Γ a s)
    (h : checkUn op a = some (u, a')) : ∃ v, u = .val v ∧ Rd Γ (.un (some u) op a') v := by
  unfold checkUn at h
  cases op <;>
    simp only [Option.bind_eq_bind, Option.bind_eq_some_iff, Option.pure_def, Option.some.injEq, Prod.mk.injEq] at h
  case not =>
    obtain ⟨_, hx, t, ht, rfl, rfl⟩ := h
    have hl := opTy_rd ha hx
    rw [ha.ty] at ht
    cases ht
    obtain ⟨A, hA⟩ := ha
    exact ⟨s, rfl, .un (.not hl) A, .un (by simp [unOp, hl]) hA⟩
  case non =>
    obtain ⟨_, hx, t, ht, rfl, rfl⟩ := h
    have hl := opTy_rd ha hx
    rw [ha.ty] at ht
    cases ht
    obtain ⟨A, hA⟩ := ha
    exact ⟨s, rfl, .un (.non hl) A, .un (by simp [unOp, hl]) hA⟩
  case embed =>
    obtain ⟨x, hx, rfl, rfl⟩ := h
    obtain ⟨A, hA⟩ := tryCast_rd' ha hx
    exact ⟨_, rfl, _, .embed hA⟩
  case iverson =>
    obtain ⟨x, hx, rfl, rfl⟩ := h
    obtain ⟨A, hA⟩ := tryCast_rd' ha hx
    exact ⟨_, rfl, _, .iverson hA⟩
  case parens =>
    obtain ⟨t, ht, rfl, rfl⟩ := h
    rw [ha.ty] at ht
    cases ht
    obtain ⟨A, hA⟩ := ha
    exact ⟨s, rfl, .un .parens A, .un rfl hA⟩

/-! ## Calls -/

theorem checkArgs_rd {Γ : Ctx} : ∀ {ps : List RParam} {as as' : List RExpr}, as.length = ps.length →
    (∀ a ∈ as, ∃ t, Rd Γ a t) → checkArgs ps as = some as' →
    List.Forall₂ (fun a p => ∃ t, p.1 = RTy.val t ∧ Rd Γ a t) as' ps
  | [], [], as', _, _, h => by
    simp only [checkArgs, Option.some.injEq] at h
    subst h
    exact .nil
  | (t, l) :: ps, a :: as, as', hl, hr, h => by
    simp only [checkArgs, Option.bind_eq_bind] at h
    split at h
    · simp at h
    · simp only [Option.bind_eq_some_iff, Option.pure_def, Option.some.injEq] at h
      obtain ⟨a', ha, as'', has, rfl⟩ := h
      obtain ⟨s, hs⟩ := hr a (.head _)
      refine .cons (tryCast_rd hs ha) (checkArgs_rd ?_ (fun a h => hr a (.tail _ h)) has)
      simpa using hl

theorem checkCall_rd {Γ : Ctx} {ps : List RParam} {as as' : List RExpr} (hr : ∀ a ∈ as, ∃ t, Rd Γ a t)
    (h : checkCall ps as = some as') : List.Forall₂ (fun a p => ∃ t, p.1 = RTy.val t ∧ Rd Γ a t) as' ps := by
  unfold checkCall at h
  split at h
  · cases h
  · rename_i hl
    exact checkArgs_rd (not_not.1 hl) hr h

theorem checkCall_plain {Γ : Ctx} {ts : List Ty} {as as' : List RExpr} (hr : ∀ a ∈ as, ∃ t, Rd Γ a t)
    (h : checkCall (plainParams ts) as = some as') : List.Forall₂ (Rd Γ) as' ts := by
  have := checkCall_rd hr h
  unfold plainParams at this
  rw [List.forall₂_map_right_iff] at this
  refine this.imp fun a t h => ?_
  obtain ⟨t', ht, h⟩ := h
  cases ht
  exact h

theorem Rd.call {Γ : Ctx} {f : Ident} {args : List RExpr} {ins : List Ty} {t : Ty} (hf : CallTy Γ f ins t)
    (h : List.Forall₂ (Rd Γ) args ins) : Rd Γ (.call (some (.val t)) f args) t := by
  have hl := h.length_eq
  have key : ∀ i : Fin ins.length, ∃ E, Reads Γ (args.get (i.cast hl.symm)) (ins.get i) E := fun i =>
    h.get (i := i.1) (by have := i.2; omega) i.2
  exact ⟨_, .call hf hl (fun i => (key i).choose) fun i => (key i).choose_spec⟩

theorem checkListOp_arg {as as' : List RExpr} {u : RTy} (h : checkListOp .len as = some (as', u)) : as' = as := by
  unfold checkListOp at h
  split at h
  · rename_i hk
    cases hk
  · rename_i hk
    cases hk
  · cases h
    rfl
  · cases h

theorem checkListOp_rd {Γ : Ctx} {f : Ident} {k : ListOp} {as as' : List RExpr} {u : RTy} (hf : Γ f = some (.listOp k))
    (hr : ∀ a ∈ as, ∃ t, Rd Γ a t) (hlen : k = .len → ∀ a ∈ as', ∃ t, a.ty = some (.val (.list t)))
    (h : checkListOp k as = some (as', u)) : ∃ v, u = .val v ∧ Rd Γ (.call (some u) f as') v := by
  unfold checkListOp at h
  split at h
  · rename_i l i
    obtain ⟨s, hs⟩ := hr l (by simp)
    obtain ⟨t, ht⟩ := hr i (by simp)
    rw [hs.ty] at h
    split at h
    · rename_i t' hl'
      cases hl'
      simp only [Option.bind_eq_bind, Option.bind_eq_some_iff, Option.pure_def, Option.some.injEq, Prod.mk.injEq] at h
      obtain ⟨i', hi, rfl, rfl⟩ := h
      exact ⟨_, rfl, Rd.call (.select hf) (.cons hs (.cons (tryCast_rd' ht hi) .nil))⟩
    · cases h
  · rename_i l i w
    obtain ⟨s, hs⟩ := hr l (by simp)
    obtain ⟨t, ht⟩ := hr i (by simp)
    obtain ⟨tw, hw⟩ := hr w (by simp)
    rw [hs.ty] at h
    split at h
    · rename_i t' hl'
      cases hl'
      simp only [Option.bind_eq_bind, Option.bind_eq_some_iff, Option.pure_def, Option.some.injEq, Prod.mk.injEq] at h
      obtain ⟨i', hi, v', hv, rfl, rfl⟩ := h
      exact ⟨_, rfl, Rd.call (.store hf) (.cons hs (.cons (tryCast_rd' ht hi) (.cons (tryCast_rd' hw hv) .nil)))⟩
    · cases h
  · rename_i l
    cases h
    obtain ⟨s, hs⟩ := hr l (by simp)
    obtain ⟨t, ht⟩ := hlen rfl l (by simp)
    rw [hs.ty] at ht
    cases ht
    exact ⟨_, rfl, Rd.call (.len hf) (.cons hs .nil)⟩
  · cases h

/-! ## Calls of `len` in the operands -/

section
variable {L : Ident → Prop}

theorem tryCast_len {t : RTy} {e e' : RExpr} (h : tryCast t e = some e') (hl : e'.LenOk L) : e.LenOk L := by
  obtain ⟨s, -, ⟨-, rfl⟩ | ⟨-, rfl⟩⟩ := tryCast_some h
  · exact hl
  · simpa only [RExpr.LenOk] using hl

theorem tryUnify_len {a b a' b' : RExpr} {u : RTy} (h : tryUnify a b = some (u, a', b')) (ha : a'.LenOk L) (hb : b'.LenOk L) :
    a.LenOk L ∧ b.LenOk L := by
  obtain ⟨s, t, -, -, ⟨-, -, rfl, rfl⟩ | ⟨-, -, rfl, rfl⟩ | ⟨-, -, rfl, rfl⟩⟩ := tryUnify_some h
  · exact ⟨ha, hb⟩
  · exact ⟨by simpa only [RExpr.LenOk] using ha, hb⟩
  · exact ⟨ha, by simpa only [RExpr.LenOk] using hb⟩

theorem checkArgs_len : ∀ {ps : List RParam} {as as' : List RExpr}, checkArgs ps as = some as' → LenOkL L as' → LenOkL L as
  | [], as, as', h, hl => by
    have : as = as' := by cases as <;> · simp only [checkArgs, Option.some.injEq] at h; exact h
    rw [this]; exact hl
  | _ :: _, [], as', h, hl => by simp only [checkArgs, Option.some.injEq] at h; rw [h]; exact hl
  | (t, l) :: ps, a :: as, as', h, hl => by
    simp only [checkArgs, Option.bind_eq_bind] at h
    split at h
    · simp at h
    · simp only [Option.bind_eq_some_iff, Option.pure_def, Option.some.injEq] at h
      obtain ⟨a', ha, as'', has, rfl⟩ := h
      simp only [LenOkL] at hl ⊢
      exact ⟨tryCast_len ha hl.1, checkArgs_len has hl.2⟩

theorem checkCall_len {ps : List RParam} {as as' : List RExpr} (h : checkCall ps as = some as') (hl : LenOkL L as') :
    LenOkL L as := by
  unfold checkCall at h
  split at h
  · cases h
  · exact checkArgs_len h hl

theorem checkListOp_len {k : ListOp} {as as' : List RExpr} {t : RTy} (h : checkListOp k as = some (as', t))
    (hl : LenOkL L as') : LenOkL L as := by
  unfold checkListOp at h
  split at h
  · split at h
    · simp only [Option.bind_eq_bind, Option.bind_eq_some_iff, Option.pure_def, Option.some.injEq, Prod.mk.injEq] at h
      obtain ⟨i, hi, rfl, rfl⟩ := h
      simp only [LenOkL, and_true] at hl ⊢
      exact ⟨hl.1, tryCast_len hi hl.2⟩
    · cases h
  · split at h
    · simp only [Option.bind_eq_bind, Option.bind_eq_some_iff, Option.pure_def, Option.some.injEq, Prod.mk.injEq] at h
      obtain ⟨i, hi, v, hv, rfl, rfl⟩ := h
      simp only [LenOkL, and_true] at hl ⊢
      exact ⟨hl.1, tryCast_len hi hl.2.1, tryCast_len hv hl.2.2⟩
    · cases h
  · cases h; exact hl
  · cases h

theorem checkDiv_len {a b a' b' : RExpr} {u : RTy} (h : checkDiv a b = some (u, a', b')) (ha : a'.LenOk L)
    (hb : b'.LenOk L) : a.LenOk L ∧ b.LenOk L := by
  have key : ∀ (t : RTy) (e : RExpr), ((tryCast t e).getD e).LenOk L → e.LenOk L := by
    intro t e hl
    cases he : tryCast t e with
    | none => rw [he] at hl; exact hl
    | some e' => rw [he] at hl; exact tryCast_len he hl
  unfold checkDiv at h
  simp only at h
  split at h
  · simp only [Option.some.injEq, Prod.mk.injEq] at h
    obtain ⟨-, rfl, rfl⟩ := h
    exact ⟨key _ _ ha, key _ _ hb⟩
  · simp only [Option.bind_eq_bind, Option.bind_eq_some_iff, Option.pure_def, Option.some.injEq, Prod.mk.injEq] at h
    obtain ⟨x, hx, y, hy, -, rfl, rfl⟩ := h
    exact ⟨key _ _ (tryCast_len hx ha), key _ _ (tryCast_len hy hb)⟩

theorem checkBin_len {op : RBin} {a b a' b' : RExpr} {u : RTy} (h : checkBin op a b = some (u, a', b')) (ha : a'.LenOk L)
    (hb : b'.LenOk L) : a.LenOk L ∧ b.LenOk L := by
  unfold checkBin at h
  cases op <;>
    simp only [Option.bind_eq_bind, Option.bind_eq_some_iff, Option.pure_def, Option.some.injEq, Prod.mk.injEq, Prod.exists] at h
  case div => exact checkDiv_len h ha hb
  case and => obtain ⟨-, -, -, -, -, rfl, rfl⟩ := h; exact ⟨ha, hb⟩
  case or => obtain ⟨-, -, -, -, -, rfl, rfl⟩ := h; exact ⟨ha, hb⟩
  case eq => obtain ⟨_, _, _, h, -, rfl, rfl⟩ := h; exact tryUnify_len h ha hb
  case ne => obtain ⟨_, _, _, h, -, rfl, rfl⟩ := h; exact tryUnify_len h ha hb
  case lt => obtain ⟨-, -, -, -, _, _, _, h, -, rfl, rfl⟩ := h; exact tryUnify_len h ha hb
  case le => obtain ⟨-, -, -, -, _, _, _, h, -, rfl, rfl⟩ := h; exact tryUnify_len h ha hb
  case ge => obtain ⟨-, -, -, -, _, _, _, h, -, rfl, rfl⟩ := h; exact tryUnify_len h ha hb
  case gt => obtain ⟨-, -, -, -, _, _, _, h, -, rfl, rfl⟩ := h; exact tryUnify_len h ha hb
  all_goals
    obtain ⟨-, -, -, -, h⟩ := h
    exact tryUnify_len h ha hb

theorem checkUn_len {op : RUn} {a a' : RExpr} {u : RTy} (h : checkUn op a = some (u, a')) (ha : a'.LenOk L) : a.LenOk L := by
  unfold checkUn at h
  cases op <;>
    simp only [Option.bind_eq_bind, Option.bind_eq_some_iff, Option.pure_def, Option.some.injEq, Prod.mk.injEq] at h
  case not => obtain ⟨-, -, -, -, -, rfl⟩ := h; exact ha
  case non => obtain ⟨-, -, -, -, -, rfl⟩ := h; exact ha
  case embed => obtain ⟨x, hx, -, rfl⟩ := h; exact tryCast_len hx ha
  case iverson => obtain ⟨x, hx, -, rfl⟩ := h; exact tryCast_len hx ha
  case parens => obtain ⟨-, -, -, rfl⟩ := h; exact ha

end

/-! ## Expressions -/

/-- What holds while an expression is visited: `Γ₀` are the declarations before type checking, `bound` are the variables of the enclosing `let`s and `xs` the ones
that are still to come. -/
structure Now (Γ₀ Γ : Ctx) (bound xs : List Ident) : Prop where
  ext : Ext Γ₀ Γ
  ctx : CtxOk Γ
  bound : ∀ x ∈ bound, ∃ t k, Γ x = some (.var (.val t) k)
  lets : ∀ x ∈ xs, Γ x = some (.var .none .subst)
  nodup : xs.Nodup

theorem Now.left {Γ₀ Γ : Ctx} {bound xs ys : List Ident} (h : Now Γ₀ Γ bound (xs ++ ys)) : Now Γ₀ Γ bound xs :=
  ⟨h.ext, h.ctx, h.bound, fun x hx => h.lets x (List.mem_append_left _ hx), h.nodup.of_append_left⟩

theorem Now.right {Γ₀ Γ Γ' : Ctx} {bound xs ys : List Ident} (h : Now Γ₀ Γ bound (xs ++ ys)) (hf : Frame xs Γ Γ')
    (hc : CtxOk Γ') : Now Γ₀ Γ' bound ys :=
  ⟨h.ext.trans hf.1, hc, fun x hx => (h.bound x hx).elim fun t ht => ht.elim fun k hk => ⟨t, k, hf.1.val hk⟩,
    fun x hx => (hf.2 x fun hm => List.disjoint_of_nodup_append h.nodup hm hx).trans (h.lets x (List.mem_append_right _ hx)),
    h.nodup.of_append_right⟩

theorem Now.nil {Γ₀ Γ : Ctx} {bound xs : List Ident} (h : Now Γ₀ Γ bound xs) : Now Γ₀ Γ bound [] :=
  ⟨h.ext, h.ctx, h.bound, fun _ h => (nomatch h), .nil⟩

mutual

theorem check_rd (pre : Bool) (Γ₀ : Ctx) : ∀ (e : RExpr) {bound : List Ident} {Γ Γ' : Ctx} {e' : RExpr},
    check pre false e Γ = some (e', Γ') → Now Γ₀ Γ bound e.lets → e.InScope Γ₀ bound → e.Plain →
    e'.LenOk (fun f => Γ₀ f = some (.listOp .len)) → (∃ t, Rd Γ' e' t) ∧ CtxOk Γ'
  | .var ty x, bound, Γ, Γ', e', h, hn, hs, hp, hl => by
    simp only [check] at h
    split at h
    · rename_i t k hk
      split at h
      · cases h
      · simp only [Option.bind_eq_bind, Option.bind_eq_some_iff, Option.pure_def, Option.some.injEq, Prod.mk.injEq] at h
        obtain ⟨e, he, rfl, rfl⟩ := h
        rw [finish_some he]
        refine ⟨?_, hn.ctx⟩
        rcases hn.ctx x t k hk with ⟨rfl, -⟩ | ⟨s, rfl⟩
        · have h0 : ∃ k, Γ₀ x = some (.var .none k) := by
            rcases hn.ext x with h1 | ⟨k', t', h1, -⟩
            · exact ⟨k, h1.symm.trans hk⟩
            · exact ⟨k', h1⟩
          obtain ⟨t, k', hx⟩ := hn.bound x (by simp only [RExpr.InScope] at hs; exact hs h0)
          rw [hk] at hx
          cases hx
        · exact ⟨s, _, .var hk⟩
    · cases h
  | .call ty f args, bound, Γ, Γ', e', h, hn, hs, hp, hl => by
    simp only [check, Option.bind_eq_bind, Option.bind_eq_some_iff, Prod.exists] at h
    obtain ⟨args', Γ₁, hL, d, hd, h⟩ := h
    obtain ⟨hF, -⟩ := checkL_frame pre args hL
    simp only [RExpr.lets] at hn
    simp only [RExpr.InScope] at hs
    simp only [RExpr.Plain] at hp
    split at h
    · simp at h
    rename_i hproc
    cases d <;>
      simp only [Option.bind_eq_some_iff, Option.pure_def, Option.some.injEq, Prod.mk.injEq, Prod.exists, reduceCtorEq] at h
    case proc => exact absurd rfl hproc
    case dist => exact absurd rfl hproc
    case func =>
      obtain ⟨as, has, e, he, rfl, rfl⟩ := h
      rw [finish_some he] at hl ⊢
      simp only [RExpr.setTy, RExpr.LenOk] at hl
      obtain ⟨hr, hc⟩ := checkL_rd pre Γ₀ args hL hn hs hp (checkCall_len has hl.2)
      exact ⟨⟨_, Rd.call (.func hd) (checkCall_plain hr has)⟩, hc⟩
    case listOp k =>
      obtain ⟨as, t, has, e, he, rfl, rfl⟩ := h
      rw [finish_some he] at hl ⊢
      simp only [RExpr.setTy, RExpr.LenOk] at hl
      obtain ⟨hr, hc⟩ := checkL_rd pre Γ₀ args hL hn hs hp (checkListOp_len has hl.2)
      refine ⟨?_, hc⟩
      obtain ⟨v, rfl, h⟩ := checkListOp_rd hd hr (fun hk a ha => by
        have hk' := hl.1 ((hn.ext.trans hF.1).back (by simp) (hk ▸ hd))
        subst hk
        obtain rfl := checkListOp_arg has
        obtain ⟨s, hs⟩ := hr a ha
        obtain ⟨t, ht⟩ := hk' a ha _ hs.ty
        exact ⟨t, by rw [hs.ty, ht]⟩) has
      exact ⟨v, h⟩
  | .ite ty c a b, bound, Γ, Γ', e', h, hn, hs, hp, hl => by
    simp only [check, Option.bind_eq_bind, Option.bind_eq_some_iff, Prod.exists, Option.pure_def, Option.some.injEq,
      Prod.mk.injEq] at h
    obtain ⟨c', Γ₁, hc, a', Γ₂, ha, b', Γ₃, hb, c'', hcc, t, a'', b'', hab, e, he, rfl, rfl⟩ := h
    rw [finish_some he] at hl ⊢
    simp only [RExpr.setTy, RExpr.LenOk] at hl
    simp only [RExpr.lets] at hn
    simp only [RExpr.InScope] at hs
    simp only [RExpr.Plain] at hp
    obtain ⟨hl₂, hl₃⟩ := tryUnify_len hab hl.2.1 hl.2.2
    obtain ⟨⟨s₁, h₁⟩, hc₁⟩ := check_rd pre Γ₀ c hc hn.left hs.1 hp.1 (tryCast_len hcc hl.1)
    have hF₁ := (check_frame pre c hc).1
    obtain ⟨⟨s₂, h₂⟩, hc₂⟩ := check_rd pre Γ₀ a ha (hn.right hF₁ hc₁).left hs.2.1 hp.2.1 hl₂
    have hF₂ := (check_frame pre a ha).1
    obtain ⟨⟨s₃, h₃⟩, hc₃⟩ := check_rd pre Γ₀ b hb ((hn.right hF₁ hc₁).right hF₂ hc₂) hs.2.2 hp.2.2 hl₃
    have hF₃ := (check_frame pre b hb).1
    refine ⟨?_, hc₃⟩
    obtain ⟨C, hC⟩ := tryCast_rd' (h₁.ext (hF₂.1.trans hF₃.1)) hcc
    obtain ⟨v, rfl, -, ⟨A, hA⟩, B, hB⟩ := tryUnify_rd (h₂.ext hF₃.1) h₃ hab
    exact ⟨v, _, .ite hC hA hB⟩
  | .bin ty op a b, bound, Γ, Γ', e', h, hn, hs, hp, hl => by
    simp only [check, Option.bind_eq_bind, Option.bind_eq_some_iff, Prod.exists, Option.pure_def, Option.some.injEq,
      Prod.mk.injEq] at h
    obtain ⟨a', Γ₂, ha, b', Γ₃, hb, t, a'', b'', hab, e, he, rfl, rfl⟩ := h
    rw [finish_some he] at hl ⊢
    simp only [RExpr.setTy, RExpr.LenOk] at hl
    simp only [RExpr.lets] at hn
    simp only [RExpr.InScope] at hs
    simp only [RExpr.Plain] at hp
    obtain ⟨hl₂, hl₃⟩ := checkBin_len hab hl.1 hl.2
    obtain ⟨⟨s₂, h₂⟩, hc₂⟩ := check_rd pre Γ₀ a ha hn.left hs.1 hp.1 hl₂
    have hF₂ := (check_frame pre a ha).1
    obtain ⟨⟨s₃, h₃⟩, hc₃⟩ := check_rd pre Γ₀ b hb (hn.right hF₂ hc₂) hs.2 hp.2 hl₃
    have hF₃ := (check_frame pre b hb).1
    refine ⟨?_, hc₃⟩
    obtain ⟨v, rfl, h⟩ := checkBin_rd (h₂.ext hF₃.1) h₃ hab
    exact ⟨v, h⟩
  | .un ty op a, bound, Γ, Γ', e', h, hn, hs, hp, hl => by
    simp only [check, Option.bind_eq_bind, Option.bind_eq_some_iff, Prod.exists, Option.pure_def, Option.some.injEq,
      Prod.mk.injEq] at h
    obtain ⟨a', Γ₂, ha, t, a'', hab, e, he, rfl, rfl⟩ := h
    rw [finish_some he] at hl ⊢
    simp only [RExpr.setTy, RExpr.LenOk] at hl
    simp only [RExpr.lets] at hn
    simp only [RExpr.InScope] at hs
    simp only [RExpr.Plain] at hp
    obtain ⟨⟨s₂, h₂⟩, hc₂⟩ := check_rd pre Γ₀ a ha hn hs hp (checkUn_len hab hl)
    refine ⟨?_, hc₂⟩
    obtain ⟨v, rfl, h⟩ := checkUn_rd h₂ hab
    exact ⟨v, h⟩
  | .cast ty a, bound, Γ, Γ', e', h, hn, hs, hp, hl => by
    simp only [RExpr.Plain] at hp
  | .quant ty op vs tr a, bound, Γ, Γ', e', h, hn, hs, hp, hl => by
    simp only [check, Option.bind_eq_bind, Option.bind_eq_some_iff, Prod.exists] at h
    obtain ⟨tr', Γ₁, ht, a', Γ₂, ha, u, hu, h⟩ := h
    split at h
    · simp at h
    simp only [Option.bind_eq_some_iff, Option.pure_def, Option.some.injEq, Prod.mk.injEq] at h
    obtain ⟨e, he, rfl, rfl⟩ := h
    rw [finish_some he] at hl ⊢
    simp only [RExpr.setTy, RExpr.LenOk] at hl
    simp only [RExpr.lets] at hn
    simp only [RExpr.InScope] at hs
    simp only [RExpr.Plain] at hp
    obtain ⟨hr, hc₁⟩ := checkLL_rd pre Γ₀ tr ht hn.left hs.2.1 hp.1 hl.1
    have hF₁ := (checkLL_frame pre tr ht).1
    obtain ⟨⟨s₂, h₂⟩, hc₂⟩ := check_rd pre Γ₀ a ha (hn.right hF₁ hc₁) hs.2.2 hp.2 hl.2
    have hF₂ := (check_frame pre a ha).1
    refine ⟨?_, hc₂⟩
    have hs₂ : s₂ = quantTy op := of_decide_eq_true (opTy_rd h₂ hu)
    subst hs₂
    obtain ⟨A, hA⟩ := h₂
    have hT : ∀ e : RExpr, ∃ T : (s : Ty) × Expr s, (∃ tr ∈ tr', e ∈ tr) → Reads Γ₂ e T.1 T.2 := by
      intro e
      by_cases hm : ∃ tr ∈ tr', e ∈ tr
      · obtain ⟨tr, htr, hm⟩ := hm
        obtain ⟨t, E, hE⟩ := hr tr htr e hm
        exact ⟨⟨t, E⟩, fun _ => hE.ext hF₂.1⟩
      · exact ⟨⟨.bool, .boolLit true⟩, fun h => absurd h hm⟩
    refine ⟨quantTy op, _, .quant (by cases op <;> constructor) (by cases op <;> rfl)
      (fun v hv => (hs.1 v hv).elim fun k hk => ⟨k, (hn.ext.trans (hF₁.1.trans hF₂.1)).val hk⟩)
      (fun e => (hT e).choose) (fun tr htr e hm => (hT e).choose_spec ⟨tr, htr, hm⟩) hA⟩
  | .subst ty x v a, bound, Γ, Γ', e', h, hn, hs, hp, hl => by
    simp only [check, Option.bind_eq_bind, Option.bind_eq_some_iff, Prod.exists, Option.pure_def, Option.some.injEq,
      Prod.mk.injEq] at h
    obtain ⟨v', Γ₁, hv, Γ₂, hx, a', Γ₃, ha, t, ht, e, he, rfl, rfl⟩ := h
    rw [finish_some he] at hl ⊢
    simp only [RExpr.setTy, RExpr.LenOk] at hl
    simp only [RExpr.lets] at hn
    simp only [RExpr.InScope] at hs
    simp only [RExpr.Plain] at hp
    obtain ⟨⟨s₁, h₁⟩, hc₁⟩ := check_rd pre Γ₀ v hv hn.left hs.1 hp.1 hl.1
    have hF₁ := (check_frame pre v hv).1
    have hn₁ := hn.right hF₁ hc₁
    have hk := hn₁.lets x (by simp)
    have hΓ₂ : Γ₂ = Function.update Γ₁ x (some (.var (.val s₁) .subst)) := by
      unfold letTy at hx
      rw [hk, h₁.ty] at hx
      simp only [Option.bind_eq_bind, Option.bind_some, Option.pure_def, Option.some.injEq] at hx
      exact hx.symm
    have hxx : Γ₂ x = some (.var (.val s₁) .subst) := by rw [hΓ₂, Function.update_self]
    have hF₂ : Frame [x] Γ₁ Γ₂ := letTy_frame hx
    have hc₂ : CtxOk Γ₂ := by
      intro y u k' hy
      by_cases hyx : y = x
      · subst hyx
        rw [hxx] at hy
        cases hy
        exact Or.inr ⟨_, rfl⟩
      · rw [hΓ₂, Function.update_of_ne hyx] at hy
        exact hc₁ y u k' hy
    have hn₂ : Now Γ₀ Γ₂ bound a.lets := Now.right (xs := [x]) hn₁ hF₂ hc₂
    have hn₃ : Now Γ₀ Γ₂ (x :: bound) a.lets := ⟨hn₂.ext, hn₂.ctx, fun y hy => by
      rcases List.mem_cons.1 hy with rfl | hy
      · exact ⟨_, _, hxx⟩
      · exact hn₂.bound y hy, hn₂.lets, hn₂.nodup⟩
    obtain ⟨⟨s₃, A, hA⟩, hc₃⟩ := check_rd pre Γ₀ a ha hn₃ hs.2 hp.2 hl.2
    have hF₃ := (check_frame pre a ha).1
    refine ⟨?_, hc₃⟩
    rw [hA.ty] at ht
    cases ht
    obtain ⟨V, hV⟩ := h₁.ext (hF₂.1.trans hF₃.1)
    exact ⟨s₃, _, .subst (X := ⟨x, s₁⟩) (hF₃.1.val hxx) rfl hV hA⟩
  | .lit ty l, bound, Γ, Γ', e', h, hn, hs, hp, hl => by
    simp only [check, Option.bind_eq_bind, Option.bind_eq_some_iff, Option.pure_def, Option.some.injEq, Prod.mk.injEq] at h
    obtain ⟨e, he, rfl, rfl⟩ := h
    rw [finish_some he]
    refine ⟨?_, hn.ctx⟩
    cases l with
    | str s => exact absurd hp (by simp [RExpr.Plain])
    | uint n => exact ⟨.uint, _, .lit (.uint n)⟩
    | frac q => exact ⟨.ureal, _, .lit (.frac q)⟩
    | infinity => exact ⟨.eureal, _, .lit .infinity⟩
    | bool b => exact ⟨.bool, _, .lit (.bool b)⟩

theorem checkL_rd (pre : Bool) (Γ₀ : Ctx) : ∀ (es : List RExpr) {bound : List Ident} {Γ Γ' : Ctx} {es' : List RExpr},
    checkL pre es Γ = some (es', Γ') → Now Γ₀ Γ bound (letsL es) → InScopeL Γ₀ bound es → PlainL es →
    LenOkL (fun f => Γ₀ f = some (.listOp .len)) es' → (∀ e ∈ es', ∃ t, Rd Γ' e t) ∧ CtxOk Γ'
  | [], bound, Γ, Γ', es', h, hn, hs, hp, hl => by
    simp only [checkL, Option.some.injEq, Prod.mk.injEq] at h
    obtain ⟨rfl, rfl⟩ := h
    exact ⟨fun _ h => (nomatch h), hn.ctx⟩
  | e :: es, bound, Γ, Γ', es', h, hn, hs, hp, hl => by
    simp only [checkL, Option.bind_eq_bind, Option.bind_eq_some_iff, Prod.exists, Option.pure_def, Option.some.injEq,
      Prod.mk.injEq] at h
    obtain ⟨e', Γ₁, he, es'', Γ₂, hes, rfl, rfl⟩ := h
    simp only [letsL] at hn
    simp only [InScopeL] at hs
    simp only [PlainL] at hp
    simp only [LenOkL] at hl
    obtain ⟨⟨t, h₁⟩, hc₁⟩ := check_rd pre Γ₀ e he hn.left hs.1 hp.1 hl.1
    have hF₁ := (check_frame pre e he).1
    obtain ⟨h₂, hc₂⟩ := checkL_rd pre Γ₀ es hes (hn.right hF₁ hc₁) hs.2 hp.2 hl.2
    have hF₂ := (checkL_frame pre es hes).1
    refine ⟨fun x hx => ?_, hc₂⟩
    rcases List.mem_cons.1 hx with rfl | hx
    · exact ⟨t, h₁.ext hF₂.1⟩
    · exact h₂ x hx

theorem checkLL_rd (pre : Bool) (Γ₀ : Ctx) : ∀ (es : List (List RExpr)) {bound : List Ident} {Γ Γ' : Ctx}
    {es' : List (List RExpr)}, checkLL pre es Γ = some (es', Γ') → Now Γ₀ Γ bound (letsLL es) → InScopeLL Γ₀ bound es →
    PlainLL es → LenOkLL (fun f => Γ₀ f = some (.listOp .len)) es' →
    (∀ tr ∈ es', ∀ e ∈ tr, ∃ t, Rd Γ' e t) ∧ CtxOk Γ'
  | [], bound, Γ, Γ', es', h, hn, hs, hp, hl => by
    simp only [checkLL, Option.some.injEq, Prod.mk.injEq] at h
    obtain ⟨rfl, rfl⟩ := h
    exact ⟨fun _ h => (nomatch h), hn.ctx⟩
  | e :: es, bound, Γ, Γ', es', h, hn, hs, hp, hl => by
    simp only [checkLL, Option.bind_eq_bind, Option.bind_eq_some_iff, Prod.exists, Option.pure_def, Option.some.injEq,
      Prod.mk.injEq] at h
    obtain ⟨e', Γ₁, he, es'', Γ₂, hes, rfl, rfl⟩ := h
    simp only [letsLL] at hn
    simp only [InScopeLL] at hs
    simp only [PlainLL] at hp
    simp only [LenOkLL] at hl
    obtain ⟨h₁, hc₁⟩ := checkL_rd pre Γ₀ e he hn.left hs.1 hp.1 hl.1
    have hF₁ := (checkL_frame pre e he).1
    obtain ⟨h₂, hc₂⟩ := checkLL_rd pre Γ₀ es hes (hn.right hF₁ hc₁) hs.2 hp.2 hl.2
    have hF₂ := (checkLL_frame pre es hes).1
    refine ⟨fun x hx => ?_, hc₂⟩
    rcases List.mem_cons.1 hx with rfl | hx
    · exact fun y hy => (h₁ y hy).elim fun t ht => ⟨t, ht.ext hF₂.1⟩
    · exact h₂ x hx

end

end Front
end Caesar
