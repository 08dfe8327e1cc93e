import Verif.Opt.QelimSound

/-!
# Quantifier elimination: soundness when `Fresh` variables are used once
-/

open scoped ENNReal NNReal

namespace Caesar
set_option linter.unusedSectionVars false

/-- The variables bound by `Fresh` quantifiers (`QuantVar::Fresh`, `src/ast/expr.rs:279-292`) anywhere in the expression. -/
def Expr.freshVars : {t : Ty} → Expr t → List Var
  | _, .var _ => []
  | _, .lit _ => []
  | _, .call f args => (List.finRange f.args.length).flatMap fun i => (args i).freshVars
  | _, .ite c a b => c.freshVars ++ (a.freshVars ++ b.freshVars)
  | _, .bin _ a b => a.freshVars ++ b.freshVars
  | _, .rel _ a b => a.freshVars ++ b.freshVars
  | _, .un _ a => a.freshVars
  | _, .embed a => a.freshVars
  | _, .iverson a => a.freshVars
  | _, .cast _ a => a.freshVars
  | _, .quant _ _ vs a => (vs.filter QVar.fresh).map QVar.var ++ a.freshVars
  | _, .subst _ e a => e.freshVars ++ a.freshVars

/-- The `Fresh` variables of each expression are not free in the other one. -/
def Apart {s t : Ty} (a : Expr s) (b : Expr t) : Prop := (∀ v ∈ a.freshVars, ¬ b.Free v) ∧ ∀ v ∈ b.freshVars, ¬ a.Free v

/-- No variable is bound by `Fresh` quantifiers in both expressions. -/
def NoCommon {s t : Ty} (a : Expr s) (b : Expr t) : Prop := ∀ v ∈ a.freshVars, v ∉ b.freshVars

/-- The condition on `Fresh` variables at a binary operator: `nc` says that the operands have no common `Fresh` variables, and `fa`, `fb`
are the conditions on the operands. The operands of `⊓` and `∧` for infima and of `⊔` and `∨` for suprema are alternatives, and may have common variables. -/
def BinOp.FreshCond {t : Ty} (op : BinOp t) (d : Dir) (nc : Prop) (fa fb : Dir → Prop) : Prop :=
  match d, op with
  | .down, .and => fa .down ∧ fb .down
  | .down, .inf _ => fa .down ∧ fb .down
  | .up, .or => fa .up ∧ fb .up
  | .up, .sup _ => fa .up ∧ fb .up
  | .down, .impl _ => nc ∧ fa .up ∧ fb .down
  | .down, .compare _ => nc ∧ fa .up ∧ fb .down
  | .up, .coimpl _ => nc ∧ fa .down ∧ fb .up
  | .up, .cocompare _ => nc ∧ fa .down ∧ fb .up
  | d, .add _ => nc ∧ fa d ∧ fb d
  | d, .mul _ => nc ∧ fa d ∧ fb d
  | .up, .and => nc ∧ fa .up ∧ fb .up
  | .up, .inf _ => nc ∧ fa .up ∧ fb .up
  | .down, .or => nc ∧ fa .down ∧ fb .down
  | .down, .sup _ => nc ∧ fa .down ∧ fb .down
  | _, _ => True

/-- The condition on `Fresh` variables at a unary operator. -/
def UnOp.FreshCond {t : Ty} (op : UnOp t) (d : Dir) (fa : Dir → Prop) : Prop :=
  match d, op with
  | d, .parens => fa d
  | .down, .not _ => fa .up
  | .up, .non _ => fa .down
  | _, _ => True

/-- `Fresh` quantified variables which are eliminated do not occur outside of their quantifier, and are not
quantified twice, with the exception of alternatives: the branches of an `if`, and the operands of `⊓` and `∧` for infima and of
`⊔` and `∨` for suprema. -/
def Expr.FreshOk : {t : Ty} → Expr t → Dir → Prop
  | _, .ite c a b, d => Apart a b ∧ Apart c a ∧ Apart c b ∧ a.FreshOk d ∧ b.FreshOk d
  | _, .bin op a b, d => Apart a b ∧ op.FreshCond d (NoCommon a b) (fun d => a.FreshOk d) (fun d => b.FreshOk d)
  | _, .un op a, d => op.FreshCond d fun d => a.FreshOk d
  | _, .quant op _ _ a, d => op.isDir d = true → a.FreshOk d
  | _, _, _ => True

theorem freshVars_occurs {t : Ty} (e : Expr t) {v : Var} (h : v ∈ e.freshVars) : e.Occurs v := by
  induction e with
  | var _ => cases h
  | lit _ => cases h
  | call f args ih =>
    obtain ⟨i, -, hi⟩ := List.mem_flatMap.1 h
    exact ⟨i, ih i hi⟩
  | ite c a b ihc iha ihb =>
    rcases List.mem_append.1 h with h | h
    · exact Or.inl (ihc h)
    · rcases List.mem_append.1 h with h | h
      · exact Or.inr (Or.inl (iha h))
      · exact Or.inr (Or.inr (ihb h))
  | bin _ a b iha ihb => exact (List.mem_append.1 h).imp iha ihb
  | rel _ a b iha ihb => exact (List.mem_append.1 h).imp iha ihb
  | un _ a ih => exact ih h
  | embed a ih => exact ih h
  | iverson a ih => exact ih h
  | cast _ a ih => exact ih h
  | quant op _ vs a ih =>
    rcases List.mem_append.1 h with h | h
    · obtain ⟨q, hq, rfl⟩ := List.mem_map.1 h
      exact Or.inr (List.mem_map.2 ⟨q, (List.mem_filter.1 hq).1, rfl⟩)
    · exact Or.inl (ih h)
  | subst x e a ihe iha =>
    rcases List.mem_append.1 h with h | h
    · exact Or.inl (ihe h)
    · exact Or.inr (Or.inl (iha h))

section
variable [Doms] [Interp]

/-- What holds of the result `e'` of quantifier elimination on `e`: there are variables `W`, which do not occur in `e` or are `Fresh` bound in `e`, such that
the value of `e` is the infimum (supremum) of the values of `e'` over all values of the variables `W`. -/
structure QRes (d : Dir) {t : Ty} (e e' : Expr t) (c c' : TyCtx) (W : Var → Prop) : Prop where
  grows : Grows c c'
  occurs : ∀ v, e'.Occurs v → v.id ∈ c'.decls
  new : ∀ v, W v → v.id ∈ c'.decls ∧ (v.id ∉ c.decls ∨ v ∈ e.freshVars)
  free : ∀ v, e'.Free v → e.Free v ∨ W v
  value : ∀ σ : Env, e.eval σ = d.extr t (fun τ : Ext W σ => e'.eval τ.1)

theorem QRes.id {d : Dir} {t : Ty} (ht : t.isLat = true) (e : Expr t) (c : TyCtx) (ho : ∀ v, e.Occurs v → v.id ∈ c.decls) :
    QRes d e e c c fun _ => False :=
  ⟨Grows.refl c, ho, fun _ h => h.elim, fun _ h => Or.inl h, fun σ => by
    have : ∀ τ : Ext (fun _ => False) σ, τ.1 = σ := fun τ => funext fun v => τ.2 v (fun h => h)
    simp only [this]
    exact (extr_unit ht _).symm⟩

section two
variable {d1 d2 : Dir} {s t : Ty} {a a' : Expr s} {b b' : Expr t} {c c1 c2 : TyCtx} {A B : Var → Prop}
  (ha : QRes d1 a a' c c1 A) (hb : QRes d2 b b' c1 c2 B)
  (hoa : ∀ v, a.Occurs v → v.id ∈ c.decls) (hob : ∀ v, b.Occurs v → v.id ∈ c.decls) (hap : Apart a b)
include ha hb hoa hob hap

theorem two_left (v : Var) (hv : A v) (hf : b'.Free v) : B v := by
  rcases hb.free v hf with h | h
  · rcases (ha.new v hv).2 with h' | h'
    · exact absurd (hob v h.occurs) h'
    · exact absurd h (hap.1 v h')
  · exact h

theorem two_right (v : Var) (hv : B v) (hf : a'.Free v) : A v := by
  rcases ha.free v hf with h | h
  · rcases (hb.new v hv).2 with h' | h'
    · exact absurd (ha.grows (hoa v h.occurs)) h'
    · exact absurd h (hap.2 v h')
  · exact h

theorem two_disjoint (hn : NoCommon a b) (v : Var) (hA : A v) (hB : B v) : False := by
  rcases (hb.new v hB).2 with h' | h'
  · exact h' (ha.new v hA).1
  · rcases (ha.new v hA).2 with h | h
    · exact h (hob v (freshVars_occurs b h'))
    · exact hn v h h'

end two

theorem qres_new {d1 d2 : Dir} {s t u : Ty} {a a' : Expr s} {b b' : Expr t} {c c1 c2 : TyCtx} {A B : Var → Prop} (e : Expr u)
    (ha : QRes d1 a a' c c1 A) (hb : QRes d2 b b' c1 c2 B)
    (hea : ∀ v ∈ a.freshVars, v ∈ e.freshVars) (heb : ∀ v ∈ b.freshVars, v ∈ e.freshVars) (v : Var) (hv : A v ∨ B v) :
    v.id ∈ c2.decls ∧ (v.id ∉ c.decls ∨ v ∈ e.freshVars) := by
  rcases hv with h | h
  · exact ⟨hb.grows (ha.new v h).1, (ha.new v h).2.imp id (hea v)⟩
  · exact ⟨(hb.new v h).1, (hb.new v h).2.imp (fun h' hc => h' (ha.grows hc)) (heb v)⟩

/-- Binary operators with separate variables. -/
theorem qres_bin_sep {d d1 d2 : Dir} {t : Ty} (ht : t.isLat = true) (op : BinOp t) {a a' b b' : Expr t} {c c1 c2 : TyCtx} {A B : Var → Prop}
    (ha : QRes d1 a a' c c1 A) (hb : QRes d2 b b' c1 c2 B)
    (hoa : ∀ v, a.Occurs v → v.id ∈ c.decls) (hob : ∀ v, b.Occurs v → v.id ∈ c.decls) (hap : Apart a b) (hn : NoCommon a b)
    (h1 : ∀ {ι : Type} [Nonempty ι] (f : ι → t.den) (y : t.den), op.den (d1.extr t f) y = d.extr t (fun i => op.den (f i) y))
    (h2 : ∀ {ι : Type} [Nonempty ι] (f : ι → t.den) (x : t.den), op.den x (d2.extr t f) = d.extr t (fun i => op.den x (f i))) :
    QRes d (.bin op a b) (.bin op a' b') c c2 fun v => A v ∨ B v := by
  refine ⟨ha.grows.trans hb.grows, ?_, qres_new _ ha hb (fun v h => List.mem_append_left _ h) (fun v h => List.mem_append_right _ h), ?_, fun σ => ?_⟩
  · rintro v (hv | hv)
    · exact hb.grows (ha.occurs v hv)
    · exact hb.occurs v hv
  · rintro v (hv | hv)
    · exact (ha.free v hv).elim (fun h => Or.inl (Or.inl h)) (fun h => Or.inr (Or.inl h))
    · exact (hb.free v hv).elim (fun h => Or.inl (Or.inr h)) (fun h => Or.inr (Or.inr h))
  · rw [Expr.eval_bin, ha.value σ, hb.value σ, two_step ht op.den _ _ (fun y => h1 _ y) (fun x => h2 _ x)]
    exact extr_pair a' b' op.den A B
      (fun v hv hf => two_disjoint ha hb hoa hob hap hn v hv (two_left ha hb hoa hob hap v hv hf))
      (fun v hv hf => two_disjoint ha hb hoa hob hap hn v (two_right ha hb hoa hob hap v hv hf) hv) σ

/-- Binary operators which may share variables. -/
theorem qres_bin_shared {d : Dir} {t : Ty} (op : BinOp t) {a a' b b' : Expr t} {c c1 c2 : TyCtx} {A B : Var → Prop}
    (ha : QRes d a a' c c1 A) (hb : QRes d b b' c1 c2 B)
    (hoa : ∀ v, a.Occurs v → v.id ∈ c.decls) (hob : ∀ v, b.Occurs v → v.id ∈ c.decls) (hap : Apart a b)
    (h1 : ∀ {ι : Type} [Nonempty ι] (f g : ι → t.den), op.den (d.extr t f) (d.extr t g) = d.extr t (fun i => op.den (f i) (g i))) :
    QRes d (.bin op a b) (.bin op a' b') c c2 fun v => A v ∨ B v := by
  refine ⟨ha.grows.trans hb.grows, ?_, qres_new _ ha hb (fun v h => List.mem_append_left _ h) (fun v h => List.mem_append_right _ h), ?_, fun σ => ?_⟩
  · rintro v (hv | hv)
    · exact hb.grows (ha.occurs v hv)
    · exact hb.occurs v hv
  · rintro v (hv | hv)
    · exact (ha.free v hv).elim (fun h => Or.inl (Or.inl h)) (fun h => Or.inr (Or.inl h))
    · exact (hb.free v hv).elim (fun h => Or.inl (Or.inr h)) (fun h => Or.inr (Or.inr h))
  · rw [Expr.eval_bin, ha.value σ, hb.value σ,
      ← extr_irrel a' (fun v => A v ∨ B v) A (fun v h => Or.inl h) (fun v hv hf => hv.elim id fun h => two_right ha hb hoa hob hap v h hf) σ,
      ← extr_irrel b' (fun v => A v ∨ B v) B (fun v h => Or.inr h) (fun v hv hf => hv.elim (fun h => two_left ha hb hoa hob hap v h hf) id) σ]
    exact h1 _ _

theorem extr_inf_both {t : Ty} (ht : t.isLat = true) {ι : Type} (f g : ι → t.den) :
    t.inf (Dir.down.extr t f) (Dir.down.extr t g) = Dir.down.extr t (fun i => t.inf (f i) (g i)) := by
  refine Ty.eq_of_le_iff fun c => ?_
  show t.le c (t.inf (t.iInf f) (t.iInf g)) ↔ t.le c (t.iInf _)
  simp only [Ty.le_iInf_iff ht, Ty.le_inf_iff (Ty.isOrd_of_isLat ht)]
  exact forall_and.symm

theorem extr_sup_both {t : Ty} (ht : t.isLat = true) {ι : Type} (f g : ι → t.den) :
    t.sup (Dir.up.extr t f) (Dir.up.extr t g) = Dir.up.extr t (fun i => t.sup (f i) (g i)) := by
  refine Ty.eq_of_ge_iff fun c => ?_
  show t.le (t.sup (t.iSup f) (t.iSup g)) c ↔ t.le (t.iSup _) c
  simp only [Ty.iSup_le_iff ht, Ty.sup_le_iff (Ty.isOrd_of_isLat ht)]
  exact forall_and.symm

theorem qres_ite {d : Dir} {t : Ty} {g : Expr .bool} {a a' b b' : Expr t} {c c1 c2 : TyCtx} {A B : Var → Prop}
    (ha : QRes d a a' c c1 A) (hb : QRes d b b' c1 c2 B)
    (hog : ∀ v, g.Occurs v → v.id ∈ c.decls) (hoa : ∀ v, a.Occurs v → v.id ∈ c.decls) (hob : ∀ v, b.Occurs v → v.id ∈ c.decls) (hap : Apart a b)
    (hga : Apart g a) (hgb : Apart g b) :
    QRes d (.ite g a b) (.ite g a' b') c c2 fun v => A v ∨ B v := by
  have hnew := qres_new (.ite g a b) ha hb (fun v h => List.mem_append_right _ (List.mem_append_left _ h))
    (fun v h => List.mem_append_right _ (List.mem_append_right _ h))
  have hgf : ∀ v, A v ∨ B v → ¬ g.Free v := by
    rintro v (hv | hv) hf
    · rcases (ha.new v hv).2 with h | h
      · exact h (hog v hf.occurs)
      · exact hga.2 v h hf
    · rcases (hb.new v hv).2 with h | h
      · exact h (ha.grows (hog v hf.occurs))
      · exact hgb.2 v h hf
  refine ⟨ha.grows.trans hb.grows, ?_, hnew, ?_, fun σ => ?_⟩
  · rintro v (hv | hv | hv)
    · exact hb.grows (ha.grows (hog v hv))
    · exact hb.grows (ha.occurs v hv)
    · exact hb.occurs v hv
  · rintro v (hv | hv | hv)
    · exact Or.inl (Or.inl hv)
    · exact (ha.free v hv).elim (fun h => Or.inl (Or.inr (Or.inl h))) (fun h => Or.inr (Or.inl h))
    · exact (hb.free v hv).elim (fun h => Or.inl (Or.inr (Or.inr h))) (fun h => Or.inr (Or.inr h))
  · have hg : ∀ τ : Ext (fun v => A v ∨ B v) σ, g.eval τ.1 = g.eval σ := fun τ =>
      g.eval_congr fun v hv => τ.2 v fun h => hgf v h hv
    rcases Classical.em (holds (g.eval σ)) with h | h
    · have : (fun τ : Ext (fun v => A v ∨ B v) σ => (Expr.ite g a' b').eval τ.1) = fun τ => a'.eval τ.1 :=
        funext fun τ => by rw [Expr.eval_ite, hg τ, if_pos h]
      rw [this, Expr.eval_ite, if_pos h, ha.value σ]
      exact (extr_irrel a' (fun v => A v ∨ B v) A (fun v h => Or.inl h) (fun v hv hf => hv.elim id fun h => two_right ha hb hoa hob hap v h hf) σ).symm
    · have : (fun τ : Ext (fun v => A v ∨ B v) σ => (Expr.ite g a' b').eval τ.1) = fun τ => b'.eval τ.1 :=
        funext fun τ => by rw [Expr.eval_ite, hg τ, if_neg h]
      rw [this, Expr.eval_ite, if_neg h, hb.value σ]
      exact (extr_irrel b' (fun v => A v ∨ B v) B (fun v h => Or.inr h) (fun v hv hf => hv.elim (fun h => two_left ha hb hoa hob hap v h hf) id) σ).symm

theorem qres_un {d d1 : Dir} {t : Ty} (op : UnOp t) {a a' : Expr t} {c c1 : TyCtx} {A : Var → Prop} (ha : QRes d1 a a' c c1 A)
    (h1 : ∀ {ι : Type} [Nonempty ι] (f : ι → t.den), op.den (d1.extr t f) = d.extr t (fun i => op.den (f i))) :
    QRes d (.un op a) (.un op a') c c1 A :=
  ⟨ha.grows, ha.occurs, ha.new, ha.free, fun σ => by rw [Expr.eval_un, ha.value σ]; exact h1 _⟩

theorem qres_quant {d : Dir} {t : Ty} (span : Nat) (op : QOp) (ht : t.isLat = true) (vs : List QVar) {a a' : Expr t} {c c1 : TyCtx} {A : Var → Prop}
    (hop : op.isDir d = true) (ha : QRes d a a' c c1 A) (ho : ∀ v, (Expr.quant op ht vs a).Occurs v → v.id ∈ c.decls) :
    Tot (elimQuant span vs a') c1 fun e' c' => ∃ W, QRes d (.quant op ht vs a) e' c c' W := by
  have hvd : ∀ q ∈ vs, q.var.id ∈ c.decls := fun q hq => ho _ (Or.inr (List.mem_map.2 ⟨q, hq, rfl⟩))
  have hsh : ∀ x, x ∈ (vs.filter fun q => !q.fresh).map QVar.var ↔ ∃ q ∈ vs, q.fresh = false ∧ q.var = x := by
    intro x
    simp [List.mem_map, List.mem_filter, and_assoc]
  have hfr : ∀ x, x ∈ (vs.filter QVar.fresh).map QVar.var ↔ ∃ q ∈ vs, q.fresh = true ∧ q.var = x := by
    intro x
    simp [List.mem_map, List.mem_filter, and_assoc]
  refine Tot.mono (elimVars_spec (d := d) span _ a' c1 (fun x hx => ?_) ha.occurs) ?_
  · obtain ⟨q, hq, -, rfl⟩ := (hsh x).1 hx
    exact ha.grows (hvd q hq)
  · rintro e' c' ⟨hg, hocc, V, hV, hF, hE⟩
    refine ⟨fun v => (v ∈ vs.map QVar.var ∨ A v ∨ V v) ∧ (v ∈ (vs.filter QVar.fresh).map QVar.var ∨ A v ∨ V v), ha.grows.trans hg, hocc, ?_, ?_, fun σ => ?_⟩
    · rintro v ⟨-, h | h | h⟩
      · refine ⟨hg (ha.grows ?_), Or.inr (List.mem_append_left _ h)⟩
        obtain ⟨q, hq, -, rfl⟩ := (hfr v).1 h
        exact hvd q hq
      · exact ⟨hg (ha.new v h).1, (ha.new v h).2.imp id (List.mem_append_right _)⟩
      · exact ⟨(hV v h).2, Or.inl fun hc => (hV v h).1 (ha.grows hc)⟩
    · intro v hv
      rcases hF v hv with ⟨hv, hn⟩ | hv
      · rcases ha.free v hv with hv | hv
        · by_cases hm : v ∈ vs.map QVar.var
          · refine Or.inr ⟨Or.inl hm, Or.inl ?_⟩
            obtain ⟨q, hq, rfl⟩ := List.mem_map.1 hm
            refine (hfr _).2 ⟨q, hq, ?_, rfl⟩
            cases hqf : q.fresh with
            | true => rfl
            | false => exact absurd ((hsh _).2 ⟨q, hq, hqf, rfl⟩) hn
          · exact Or.inl ⟨hv, hm⟩
        · exact Or.inr ⟨Or.inr (Or.inl hv), Or.inr (Or.inl hv)⟩
      · exact Or.inr ⟨Or.inr (Or.inr hv), Or.inr (Or.inr hv)⟩
    · rw [Expr.eval_quant, quantVars_extr hop ht]
      simp only [ha.value]
      rw [extr_union ht (· ∈ vs.map QVar.var) A a'.eval σ,
        hE (fun v => v ∈ vs.map QVar.var ∨ A v) (fun x hx => ?_) (fun v hv => ?_) σ]
      · refine extr_irrel e' _ _ (fun v h => h.1.elim (fun h => Or.inl (Or.inl h)) (fun h => h.elim (fun h => Or.inl (Or.inr h)) Or.inr)) ?_ σ
        intro v hv hf
        refine ⟨hv.elim (fun h => h.imp_right Or.inl) (fun h => Or.inr (Or.inr h)), ?_⟩
        rcases hv with (hv | hv) | hv
        · rcases hF v hf with ⟨-, hn⟩ | h
          · left
            obtain ⟨q, hq, rfl⟩ := List.mem_map.1 hv
            refine (hfr _).2 ⟨q, hq, ?_, rfl⟩
            cases hqf : q.fresh with
            | true => rfl
            | false => exact absurd ((hsh _).2 ⟨q, hq, hqf, rfl⟩) hn
          · exact Or.inr (Or.inr h)
        · exact Or.inr (Or.inl hv)
        · exact Or.inr (Or.inr hv)
      · obtain ⟨q, hq, -, rfl⟩ := (hsh x).1 hx
        exact Or.inl (List.mem_map.2 ⟨q, hq, rfl⟩)
      · rcases hv with hv | hv
        · obtain ⟨q, hq, rfl⟩ := List.mem_map.1 hv
          exact ha.grows (hvd q hq)
        · exact (ha.new v hv).1

theorem qelim_nonlat (span : Nat) {t : Ty} (ht : t.isLat = false) (e : Expr t) (d : Dir) : e.qelim span d = pure e := by
  have hn : ¬ t.isLat = true := by rw [ht]; exact Bool.false_ne_true
  cases e with
  | quant op h vs a => exact absurd h hn
  | ite c a b => rw [Expr.qelim, if_neg hn]
  | bin op a b =>
    cases op with
    | and => exact absurd rfl hn
    | or => exact absurd rfl hn
    | _ => cases d <;> (unfold Expr.qelim; simp only [if_neg hn])
  | un op a => cases op <;> cases d <;> (unfold Expr.qelim; simp only [if_neg hn])
  | cast op a => rw [Expr.qelim, if_neg hn]
  | subst x r a => rw [Expr.qelim, if_neg hn]
  | _ => rfl

/-- Quantifier elimination does not panic; the value of the expression is the infimum (supremum) of the values of the result over the new
variables. -/
theorem qelim_spec (span : Nat) {t : Ty} (ht : t.isLat = true) (e : Expr t) : ∀ (d : Dir) (c : TyCtx), (∀ v, e.Occurs v → v.id ∈ c.decls) → e.NoSubst →
    e.FreshOk d → Tot (e.qelim span d) c fun e' c' => ∃ W, QRes d e e' c c' W := by
  induction e with
  | var x => exact fun d c ho _ _ => Tot.pure ⟨_, QRes.id ht _ c ho⟩
  | lit l => exact fun d c ho _ _ => Tot.pure ⟨_, QRes.id ht _ c ho⟩
  | call f args => exact fun d c ho _ _ => Tot.pure ⟨_, QRes.id ht _ c ho⟩
  | rel op a b => exact fun d c ho _ _ => Tot.pure ⟨_, QRes.id ht _ c ho⟩
  | embed a => exact fun d c ho _ _ => Tot.pure ⟨_, QRes.id ht _ c ho⟩
  | iverson a => exact fun d c ho _ _ => Tot.pure ⟨_, QRes.id ht _ c ho⟩
  | cast op a =>
    intro d c ho _ _
    rw [Expr.qelim, if_pos ht]
    have : a.qelim span d = pure a := by
      cases op with
      | uintEUReal => exact qelim_nonlat span rfl a d
      | urealEUReal => exact qelim_nonlat span rfl a d
      | _ => cases ht
    rw [this]
    exact Tot.pure ⟨_, QRes.id ht _ c ho⟩
  | subst x r a => exact fun d c _ hn => hn.elim
  | @ite t g a b _ iha ihb =>
    rintro d c ho ⟨hng, hna, hnb⟩ ⟨hap, hga, hgb, hfa, hfb⟩
    have hoa : ∀ v, a.Occurs v → v.id ∈ c.decls := fun v hv => ho v (Or.inr (Or.inl hv))
    have hob : ∀ v, b.Occurs v → v.id ∈ c.decls := fun v hv => ho v (Or.inr (Or.inr hv))
    rw [Expr.qelim, if_pos ht]
    refine Tot.bind (iha ht d c hoa hna hfa) fun a' c1 ⟨A, ha⟩ => ?_
    refine Tot.bind (ihb ht d c1 (fun v hv => ha.grows (hob v hv)) hnb hfb) fun b' c2 ⟨B, hb⟩ => ?_
    exact Tot.pure ⟨_, qres_ite ha hb (fun v hv => ho v (Or.inl hv)) hoa hob hap hga hgb⟩
  | @bin t op a b iha ihb =>
    rintro d c ho ⟨hna, hnb⟩ hf
    obtain ⟨hap, hf⟩ := hf
    have hoa : ∀ v, a.Occurs v → v.id ∈ c.decls := fun v hv => ho v (Or.inl hv)
    have hob : ∀ v, b.Occurs v → v.id ∈ c.decls := fun v hv => ho v (Or.inr hv)
    have two : ∀ (d1 d2 : Dir) (op : BinOp t), a.FreshOk d1 → b.FreshOk d2 →
        (∀ a' c1 b' c2 A B, QRes d1 a a' c c1 A → QRes d2 b b' c1 c2 B → ∃ W, QRes d (.bin op a b) (.bin op a' b') c c2 W) →
        Tot (do let a ← a.qelim span d1; let b ← b.qelim span d2; return .bin op a b) c fun e' c' => ∃ W, QRes d (.bin op a b) e' c c' W := by
      intro d1 d2 op hfa hfb h
      refine Tot.bind (iha ht d1 c hoa hna hfa) fun a' c1 ⟨A, ha⟩ => ?_
      refine Tot.bind (ihb ht d2 c1 (fun v hv => ha.grows (hob v hv)) hnb hfb) fun b' c2 ⟨B, hb⟩ => ?_
      exact Tot.pure (h a' c1 b' c2 A B ha hb)
    have same : ∀ op : BinOp t, Tot (pure (.bin op a b) : PM TyCtx (Expr t)) c fun e' c' => ∃ W, QRes d (.bin op a b) e' c c' W :=
      fun op => Tot.pure ⟨_, QRes.id ht _ c ho⟩
    cases op with
    | add h =>
      have ht' : t = .eureal := by cases t <;> first | rfl | (exact absurd ht Bool.false_ne_true) | (exact absurd h Bool.false_ne_true)
      subst ht'
      have hf : NoCommon a b ∧ a.FreshOk d ∧ b.FreshOk d := by cases d <;> exact hf
      have hq : (Expr.bin (.add h) a b).qelim span d = do
          let a ← a.qelim span d
          let b ← b.qelim span d
          return .bin (.add h) a b := by cases d <;> rfl
      rw [hq]
      refine two d d (.add h) hf.2.1 hf.2.2 fun a' c1 b' c2 A B ha hb => ⟨_, qres_bin_sep ht (.add h) ha hb hoa hob hap hf.1 ?_ ?_⟩
      · exact fun f y => extr_add_left d f y
      · exact fun f y => extr_add_right d f y
    | mul h =>
      have ht' : t = .eureal := by cases t <;> first | rfl | (exact absurd ht Bool.false_ne_true) | (exact absurd h Bool.false_ne_true)
      subst ht'
      have hf : NoCommon a b ∧ a.FreshOk d ∧ b.FreshOk d := by cases d <;> exact hf
      have hq : (Expr.bin (.mul h) a b).qelim span d = if a.isFinite then do return .bin (.mul h) a (← b.qelim span d)
            else if b.isFinite then do return .bin (.mul h) (← a.qelim span d) b
            else pure (.bin (.mul h) a b) := by cases d <;> rfl
      rw [hq]
      split
      · rename_i hfin
        refine Tot.bind (ihb ht d c hob hnb hf.2.2) fun b' c2 ⟨B, hb⟩ => Tot.pure ⟨B, ?_⟩
        have hba : ∀ v, B v → ¬ a.Free v := fun v hv hfr => ((hb.new v hv).2.elim (fun h => h (hoa v hfr.occurs)) fun h => hap.2 v h hfr)
        refine ⟨hb.grows, ?_, fun v hv => ⟨(hb.new v hv).1, (hb.new v hv).2.imp_right (List.mem_append_right _)⟩, ?_, fun σ => ?_⟩
        · rintro v (hv | hv)
          · exact hb.grows (hoa v hv)
          · exact hb.occurs v hv
        · rintro v (hv | hv)
          · exact Or.inl (Or.inl hv)
          · exact (hb.free v hv).imp_left Or.inr
        · rw [Expr.eval_bin, hb.value σ]
          refine (extr_mul_right d _ _ (isFinite_ne_top a hfin σ)).trans ?_
          congr 1
          funext τ
          exact congrArg (fun x : ℝ≥0∞ => x * b'.ev τ.1) (a.eval_congr fun v hv => (τ.2 v fun h => hba v h hv).symm)
      · split
        · rename_i hfin
          refine Tot.bind (iha ht d c hoa hna hf.2.1) fun a' c2 ⟨A, ha⟩ => Tot.pure ⟨A, ?_⟩
          have hab : ∀ v, A v → ¬ b.Free v := fun v hv hfr => ((ha.new v hv).2.elim (fun h => h (hob v hfr.occurs)) fun h => hap.1 v h hfr)
          refine ⟨ha.grows, ?_, fun v hv => ⟨(ha.new v hv).1, (ha.new v hv).2.imp_right (List.mem_append_left _)⟩, ?_, fun σ => ?_⟩
          · rintro v (hv | hv)
            · exact ha.occurs v hv
            · exact ha.grows (hob v hv)
          · rintro v (hv | hv)
            · exact (ha.free v hv).imp_left Or.inl
            · exact Or.inl (Or.inr hv)
          · rw [Expr.eval_bin, ha.value σ]
            refine (extr_mul_left d _ _ (isFinite_ne_top b hfin σ)).trans ?_
            congr 1
            funext τ
            exact congrArg (fun x : ℝ≥0∞ => a'.ev τ.1 * x) (b.eval_congr fun v hv => (τ.2 v fun h => hab v h hv).symm)
        · exact same _
    | and =>
      have hden : ∀ p q : Ty.bool.den, BinOp.and.den p q = Ty.inf .bool p q := and_eq_inf
      cases d with
      | down =>
        unfold Expr.qelim
        rw [if_pos ht]
        refine two .down .down .and hf.1 hf.2 fun a' c1 b' c2 A B ha hb => ⟨_, qres_bin_shared .and ha hb hoa hob hap ?_⟩
        intro ι _ f g
        simp only [hden]
        exact extr_inf_both rfl f g
      | up =>
        unfold Expr.qelim
        rw [if_pos ht]
        refine two .up .up .and hf.2.1 hf.2.2 fun a' c1 b' c2 A B ha hb => ⟨_, qres_bin_sep ht .and ha hb hoa hob hap hf.1 ?_ ?_⟩
        · intro ι _ f y
          simp only [hden]
          exact extr_inf_left rfl f y .up
        · intro ι _ f y
          simp only [hden]
          exact extr_inf_right rfl f y .up
    | or =>
      have hden : ∀ p q : Ty.bool.den, BinOp.or.den p q = Ty.sup .bool p q := or_eq_sup
      cases d with
      | up =>
        unfold Expr.qelim
        rw [if_pos ht]
        refine two .up .up .or hf.1 hf.2 fun a' c1 b' c2 A B ha hb => ⟨_, qres_bin_shared .or ha hb hoa hob hap ?_⟩
        intro ι _ f g
        simp only [hden]
        exact extr_sup_both rfl f g
      | down =>
        unfold Expr.qelim
        rw [if_pos ht]
        refine two .down .down .or hf.2.1 hf.2.2 fun a' c1 b' c2 A B ha hb => ⟨_, qres_bin_sep ht .or ha hb hoa hob hap hf.1 ?_ ?_⟩
        · intro ι _ f y
          simp only [hden]
          exact extr_sup_left rfl f y .down
        · intro ι _ f y
          simp only [hden]
          exact extr_sup_right rfl f y .down
    | inf h =>
      cases d with
      | down =>
        unfold Expr.qelim
        rw [if_pos ht]
        exact two .down .down (.inf h) hf.1 hf.2 fun a' c1 b' c2 A B ha hb => ⟨_, qres_bin_shared (.inf h) ha hb hoa hob hap fun f g => extr_inf_both ht f g⟩
      | up =>
        unfold Expr.qelim
        rw [if_pos ht]
        exact two .up .up (.inf h) hf.2.1 hf.2.2 fun a' c1 b' c2 A B ha hb => ⟨_, qres_bin_sep ht (.inf h) ha hb hoa hob hap hf.1
          (fun f y => extr_inf_left ht f y .up) (fun f y => extr_inf_right ht f y .up)⟩
    | sup h =>
      cases d with
      | up =>
        unfold Expr.qelim
        rw [if_pos ht]
        exact two .up .up (.sup h) hf.1 hf.2 fun a' c1 b' c2 A B ha hb => ⟨_, qres_bin_shared (.sup h) ha hb hoa hob hap fun f g => extr_sup_both ht f g⟩
      | down =>
        unfold Expr.qelim
        rw [if_pos ht]
        exact two .down .down (.sup h) hf.2.1 hf.2.2 fun a' c1 b' c2 A B ha hb => ⟨_, qres_bin_sep ht (.sup h) ha hb hoa hob hap hf.1
          (fun f y => extr_sup_left ht f y .down) (fun f y => extr_sup_right ht f y .down)⟩
    | impl h =>
      cases d with
      | down =>
        unfold Expr.qelim
        rw [if_pos ht]
        exact two .up .down (.impl h) hf.2.1 hf.2.2 fun a' c1 b' c2 A B ha hb => ⟨_, qres_bin_sep ht (.impl h) ha hb hoa hob hap hf.1
          (fun f y => extr_impl_left ht f y) (fun f y => extr_impl_right ht f y)⟩
      | up =>
        unfold Expr.qelim
        rw [if_pos ht]
        exact same _
    | compare h =>
      cases d with
      | down =>
        unfold Expr.qelim
        rw [if_pos ht]
        exact two .up .down (.compare h) hf.2.1 hf.2.2 fun a' c1 b' c2 A B ha hb => ⟨_, qres_bin_sep ht (.compare h) ha hb hoa hob hap hf.1
          (fun f y => extr_compare_left ht f y) (fun f y => extr_compare_right ht f y)⟩
      | up =>
        unfold Expr.qelim
        rw [if_pos ht]
        exact same _
    | coimpl h =>
      cases d with
      | up =>
        unfold Expr.qelim
        rw [if_pos ht]
        exact two .down .up (.coimpl h) hf.2.1 hf.2.2 fun a' c1 b' c2 A B ha hb => ⟨_, qres_bin_sep ht (.coimpl h) ha hb hoa hob hap hf.1
          (fun f y => extr_coimpl_left ht f y) (fun f y => extr_coimpl_right ht f y)⟩
      | down =>
        unfold Expr.qelim
        rw [if_pos ht]
        exact same _
    | cocompare h =>
      cases d with
      | up =>
        unfold Expr.qelim
        rw [if_pos ht]
        exact two .down .up (.cocompare h) hf.2.1 hf.2.2 fun a' c1 b' c2 A B ha hb => ⟨_, qres_bin_sep ht (.cocompare h) ha hb hoa hob hap hf.1
          (fun f y => extr_cocompare_left ht f y) (fun f y => extr_cocompare_right ht f y)⟩
      | down =>
        unfold Expr.qelim
        rw [if_pos ht]
        exact same _
    | sub h => cases d <;> (unfold Expr.qelim; rw [if_pos ht]; exact same _)
    | div h => cases d <;> (unfold Expr.qelim; rw [if_pos ht]; exact same _)
    | mod h => cases d <;> (unfold Expr.qelim; rw [if_pos ht]; exact same _)
  | @un t op a iha =>
    intro d c ho hn hf
    cases op with
    | parens =>
      have key : ∀ d, a.FreshOk d → Tot (do return .un .parens (← a.qelim span d) : PM TyCtx (Expr t)) c fun e' c' => ∃ W, QRes d (.un .parens a) e' c c' W :=
        fun d hf => Tot.bind (iha ht d c ho hn hf) fun a' c1 ⟨A, ha⟩ => Tot.pure ⟨A, qres_un .parens ha fun f => rfl⟩
      cases d <;> (unfold Expr.qelim; rw [if_pos ht]; exact key _ hf)
    | not h =>
      cases d with
      | down =>
        unfold Expr.qelim
        rw [if_pos ht]
        exact Tot.bind (iha ht .up c ho hn hf) fun a' c1 ⟨A, ha⟩ => Tot.pure ⟨A, qres_un (.not h) ha fun f => extr_not ht f⟩
      | up =>
        unfold Expr.qelim
        rw [if_pos ht]
        exact Tot.pure ⟨_, QRes.id ht _ c ho⟩
    | non h =>
      cases d with
      | up =>
        unfold Expr.qelim
        rw [if_pos ht]
        exact Tot.bind (iha ht .down c ho hn hf) fun a' c1 ⟨A, ha⟩ => Tot.pure ⟨A, qres_un (.non h) ha fun f => extr_non ht f⟩
      | down =>
        unfold Expr.qelim
        rw [if_pos ht]
        exact Tot.pure ⟨_, QRes.id ht _ c ho⟩
  | quant op h vs a iha =>
    intro d c ho hn hf
    rw [Expr.qelim]
    split
    · rename_i hop
      refine Tot.bind (iha ht d c (fun v hv => ho v (Or.inl hv)) hn (hf hop)) fun a' c1 ⟨A, ha⟩ => ?_
      exact qres_quant span op h vs hop ha ho
    · exact Tot.pure ⟨_, QRes.id ht _ c ho⟩

end
end Caesar
