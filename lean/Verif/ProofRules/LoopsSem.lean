import Verif.ProofRules.Loops

/-!
# Meaning of the loop encodings (proofs)
-/

open scoped ENNReal NNReal

namespace Caesar
set_option linter.unusedSectionVars false
variable [Doms] [Interp]

theorem extremeLit_down (σ : Env) : (extremeLit .down).ev σ = 0 := by
  show ((0 : ℕ) : ℝ≥0∞) = 0
  exact Nat.cast_zero

theorem extremeLit_up (σ : Env) : (extremeLit .up).ev σ = ⊤ := rfl

/-- `assert e; assume extreme` is constantly `e`. -/
theorem const_sem (C : SemCtx) (e : Expr .eureal) (d : Dir) (φ : Exp) :
    vcSem C (.seq (.assert d e) (.seq (.assume d (extremeLit d)) .skip)) φ = e.ev := by
  classical
  funext σ
  cases d
  · show min (e.ev σ) (if (extremeLit .down).ev σ ≤ φ σ then ⊤ else φ σ) = _
    rw [extremeLit_down, if_pos zero_le, min_eq_left le_top]
  · show max (e.ev σ) (if (extremeLit .up).ev σ ≥ φ σ then 0 else φ σ) = _
    rw [extremeLit_up, if_pos le_top, max_eq_left zero_le]

theorem heyConst_sem (C : SemCtx) (e : Expr .eureal) (d : Dir) (φ : Exp) :
    vcSem C (heyConst e d) φ = e.ev := const_sem C e d φ

theorem iterationTerminator_sem (C : SemCtx) (e : Expr .eureal) (d : Dir) (φ : Exp) :
    vcSem C (iterationTerminator e d) φ = e.ev := const_sem C e d φ

theorem parkIterationTerminator_sem (C : SemCtx) (e : Expr .eureal) (d : Dir) (φ : Exp) :
    vcSem C (parkIterationTerminator e d) φ = e.ev := const_sem C e d φ

theorem encodeIter_sem (C : SemCtx) (c : Expr .bool) (body next : Stmt) (φ : Exp) :
    vcSem C (encodeIter c body next) φ = loopFun C c body φ (vcSem C next φ) := rfl

/-- `j` extensions of the invariant in the direction opposite to `d`. -/
noncomputable def extendSem (d : Dir) (Φ : Exp → Exp) (I : Exp) : Nat → Exp
  | 0 => I
  | j + 1 => match d with
    | .down => fun σ => max (I σ) (Φ (extendSem d Φ I j) σ)
    | .up => fun σ => min (I σ) (Φ (extendSem d Φ I j) σ)

theorem encodeExtend_sem (C : SemCtx) (c : Expr .bool) (body : Stmt) (I : Expr .eureal) (d : Dir) (next : Stmt)
    (φ : Exp) (hn : vcSem C next φ = I.ev) (k : Nat) :
    vcSem C (encodeExtend c body k I d.toggle next) φ = extendSem d (loopFun C c body φ) I.ev k := by
  induction k with
  | zero => exact hn
  | succ k ih =>
    have h : vcSem C (encodeExtend c body (k + 1) I d.toggle next) φ
        = vcSem C (.assert d.toggle I)
            (loopFun C c body φ (vcSem C (encodeExtend c body k I d.toggle next) φ)) := rfl
    rw [h, ih]
    cases d <;> rfl

theorem encodeUnroll_sem (C : SemCtx) (c : Expr .bool) (body next : Stmt) (φ : Exp) (k : Nat) :
    vcSem C (encodeUnroll c body k next) φ = (loopFun C c body φ)^[k] (vcSem C next φ) := by
  induction k with
  | zero => rfl
  | succ k ih =>
    have h : vcSem C (encodeUnroll c body (k + 1) next) φ
        = loopFun C c body φ (vcSem C (encodeUnroll c body k next) φ) := rfl
    rw [h, ih, Function.iterate_succ_apply']

/-- The inductivity condition checked by the encoding in the states reachable by havocking `xs`. -/
def Inductive (d : Dir) (Φ : Exp → Exp) (I : Exp) (k : Nat) (xs : List Var) (σ : Env) : Prop :=
  ∀ σ', Agree xs σ σ' → match d with
    | .down => I σ' ≤ Φ (extendSem d Φ I (k - 1)) σ'
    | .up => Φ (extendSem d Φ I (k - 1)) σ' ≤ I σ'

open Classical in
theorem transformKInduction_sem (C : SemCtx) (d : Dir) (k : Nat) (I : Expr .eureal) (c : Expr .bool) (body : Stmt)
    (φ : Exp) (σ : Env) :
    vcSem C (transformKInduction d k I c body) φ σ
      = if Inductive d (loopFun C c body φ) I.ev k body.modified σ then I.ev σ
        else match d with | .down => 0 | .up => ⊤ := by
  let T := if k = 1 then parkIterationTerminator I d else iterationTerminator I d
  have hT : vcSem C T φ = I.ev := by
    by_cases hk : k = 1
    · show vcSem C (if k = 1 then _ else _) φ = _
      rw [if_pos hk]; exact parkIterationTerminator_sem C I d φ
    · show vcSem C (if k = 1 then _ else _) φ = _
      rw [if_neg hk]; exact iterationTerminator_sem C I d φ
  have hX := encodeExtend_sem C c body I d T φ hT (k - 1)
  set Φ := loopFun C c body φ with hΦ
  set X := extendSem d Φ I.ev (k - 1) with hXd
  have h1 : vcSem C (transformKInduction d k I c body) φ σ
      = vcSem C (.assert d I) (vcSem C (.havoc d body.modified) (vcSem C (.validate d)
          (vcSem C (.assume d I) (Φ (vcSem C (encodeExtend c body (k - 1) I d.toggle T) φ))))) σ := rfl
  rw [h1, hX]
  cases d with
  | down =>
    have h2 : vcSem C (.havoc .down body.modified) (vcSem C (.validate .down) (vcSem C (.assume .down I) (Φ X))) σ
        = if Inductive .down Φ I.ev k body.modified σ then ⊤ else 0 := by
      show (⨅ σ' ∈ {σ' | Agree body.modified σ σ'},
        if (if I.ev σ' ≤ Φ X σ' then ⊤ else Φ X σ') = ⊤ then (⊤ : ℝ≥0∞) else 0) = _
      by_cases hI : Inductive .down Φ I.ev k body.modified σ
      · rw [if_pos hI]
        refine top_le_iff.1 (le_iInf₂ fun σ' hs => ?_)
        rw [if_pos (if_pos (hI σ' hs))]
      · rw [if_neg hI]
        unfold Inductive at hI
        push Not at hI
        obtain ⟨σ', hs, hn⟩ := hI
        have hn' : ¬ I.ev σ' ≤ Φ X σ' := fun h => absurd h hn.not_ge
        refine le_antisymm ((iInf₂_le σ' hs).trans ?_) zero_le
        rw [if_neg hn', if_neg (fun (ht : Φ X σ' = ⊤) => hn' (ht ▸ le_top))]
    show min (I.ev σ) (vcSem C (.havoc .down body.modified) (vcSem C (.validate .down)
      (vcSem C (.assume .down I) (Φ X))) σ) = _
    rw [h2]
    by_cases hI : Inductive .down Φ I.ev k body.modified σ
    · rw [if_pos hI, if_pos hI, min_eq_left le_top]
    · rw [if_neg hI, if_neg hI, min_eq_right zero_le]
  | up =>
    have h2 : vcSem C (.havoc .up body.modified) (vcSem C (.validate .up) (vcSem C (.assume .up I) (Φ X))) σ
        = if Inductive .up Φ I.ev k body.modified σ then 0 else ⊤ := by
      show (⨆ σ' ∈ {σ' | Agree body.modified σ σ'},
        if (if I.ev σ' ≥ Φ X σ' then 0 else Φ X σ') = 0 then (0 : ℝ≥0∞) else ⊤) = _
      by_cases hI : Inductive .up Φ I.ev k body.modified σ
      · rw [if_pos hI]
        refine le_antisymm (iSup₂_le fun σ' hs => ?_) zero_le
        rw [if_pos (if_pos (hI σ' hs))]
      · rw [if_neg hI]
        unfold Inductive at hI
        push Not at hI
        obtain ⟨σ', hs, hn⟩ := hI
        have hn' : ¬ I.ev σ' ≥ Φ X σ' := fun h => absurd h hn.not_ge
        refine top_le_iff.1 (le_trans ?_ (le_iSup₂ (f := fun σ' (_ : σ' ∈ {σ' | Agree body.modified σ σ'}) =>
          if (if I.ev σ' ≥ Φ X σ' then 0 else Φ X σ') = 0 then (0 : ℝ≥0∞) else ⊤) σ' hs))
        show _ ≤ if (if I.ev σ' ≥ Φ X σ' then 0 else Φ X σ') = 0 then (0 : ℝ≥0∞) else ⊤
        rw [if_neg hn', if_neg (fun (ht : Φ X σ' = 0) => hn' (ht ▸ zero_le))]
    show max (I.ev σ) (vcSem C (.havoc .up body.modified) (vcSem C (.validate .up)
      (vcSem C (.assume .up I) (Φ X))) σ) = _
    rw [h2]
    by_cases hI : Inductive .up Φ I.ev k body.modified σ
    · rw [if_pos hI, if_pos hI, max_eq_left zero_le]
    · rw [if_neg hI, if_neg hI, max_eq_right le_top]

/-! ## Extension -/

theorem extendSem_le_succ {Φ : Exp → Exp} (hΦ : Monotone Φ) (I : Exp) (j : Nat) :
    extendSem .down Φ I j ≤ extendSem .down Φ I (j + 1) := by
  induction j with
  | zero => exact fun σ => le_max_left _ _
  | succ j ih => exact fun σ => max_le_max le_rfl (hΦ ih σ)

theorem extendSem_succ_le {Φ : Exp → Exp} (hΦ : Monotone Φ) (I : Exp) (j : Nat) :
    extendSem .up Φ I (j + 1) ≤ extendSem .up Φ I j := by
  induction j with
  | zero => exact fun σ => min_le_left _ _
  | succ j ih => exact fun σ => min_le_min le_rfl (hΦ ih σ)

theorem le_extendSem {Φ : Exp → Exp} (I : Exp) (j : Nat) : I ≤ extendSem .down Φ I j := by
  cases j with
  | zero => exact le_rfl
  | succ j => exact fun σ => le_max_left _ _

theorem extendSem_le {Φ : Exp → Exp} (I : Exp) (j : Nat) : extendSem .up Φ I j ≤ I := by
  cases j with
  | zero => exact le_rfl
  | succ j => exact fun σ => min_le_left _ _

theorem extendSem_ignores {d : Dir} {Φ : Exp → Exp} {D : Var → Prop}
    (hD : ∀ X, Ignores D X → Ignores D (Φ X)) {I : Exp} (hI : Ignores D I) (j : Nat) :
    Ignores D (extendSem d Φ I j) := by
  induction j with
  | zero => exact hI
  | succ j ih =>
    intro σ σ' h
    cases d
    · show max _ _ = max _ _
      rw [hI _ _ h, hD _ ih _ _ h]
    · show min _ _ = min _ _
      rw [hI _ _ h, hD _ ih _ _ h]

/-- Inductivity in one class of states gives a fixed point bound in that class. -/
theorem le_gfp_of_local {Φ : Exp → Exp} {K : Env → Prop}
    (hframe : ∀ X Y, (∀ σ, K σ → X σ = Y σ) → ∀ σ, K σ → Φ X σ = Φ Y σ) {T : Exp}
    (hT : ∀ σ, K σ → T σ ≤ Φ T σ) {σ : Env} (hσ : K σ) : T σ ≤ fixpoint .gfp Φ σ := by
  classical
  let X : Exp := fun σ => if K σ then T σ else 0
  have hX : ∀ σ, K σ → X σ = T σ := fun σ hs => if_pos hs
  have h1 : X ≤ Φ X := by
    intro σ
    by_cases hs : K σ
    · rw [hX σ hs, hframe X T hX σ hs]; exact hT σ hs
    · show (if K σ then T σ else 0) ≤ _
      rw [if_neg hs]; exact zero_le
  exact (hX σ hσ).ge.trans ((le_sSup (a := X) (s := {X | X ≤ Φ X}) h1 : X ≤ fixpoint .gfp Φ) σ)

theorem lfp_le_of_local {Φ : Exp → Exp} {K : Env → Prop}
    (hframe : ∀ X Y, (∀ σ, K σ → X σ = Y σ) → ∀ σ, K σ → Φ X σ = Φ Y σ) {T : Exp}
    (hT : ∀ σ, K σ → Φ T σ ≤ T σ) {σ : Env} (hσ : K σ) : fixpoint .lfp Φ σ ≤ T σ := by
  classical
  let X : Exp := fun σ => if K σ then T σ else ⊤
  have hX : ∀ σ, K σ → X σ = T σ := fun σ hs => if_pos hs
  have h1 : Φ X ≤ X := by
    intro σ
    by_cases hs : K σ
    · rw [hX σ hs, hframe X T hX σ hs]; exact hT σ hs
    · show _ ≤ (if K σ then T σ else ⊤)
      rw [if_neg hs]; exact le_top
  exact ((sInf_le (a := X) (s := {X | Φ X ≤ X}) h1 : fixpoint .lfp Φ ≤ X) σ).trans (hX σ hσ).le

/-- Any two states differing only in `M` and `D` are connected by one differing in `M` from the first and in `D`
from the second. -/
theorem agreeOff_split {M D : Var → Prop} {σ σ'' : Env} (h : AgreeOff (fun v => M v ∨ D v) σ σ'') :
    ∃ σ', AgreeOff M σ σ' ∧ AgreeOff D σ' σ'' := by
  classical
  refine ⟨fun v => if D v then σ v else σ'' v, fun v hv => ?_, fun v hv => ?_⟩
  · show (if D v then σ v else σ'' v) = _
    by_cases hd : D v
    · rw [if_pos hd]
    · rw [if_neg hd]; exact h v fun h => h.elim hv hd
  · show _ = (if D v then σ v else σ'' v)
    rw [if_neg hv]

/-- Soundness of one encoded loop, downwards. `Φ'` is the loop function of the (already encoded) body, `Φ` that of
the original one. -/
theorem kInduction_down {Φ Φ' : Exp → Exp} (hmono : Monotone Φ') {I : Exp} {k : Nat} {xs : List Var}
    {D : Var → Prop} {σ : Env}
    (hframe : ∀ X Y, (∀ σ', AgreeOff (fun v => v ∈ xs ∨ D v) σ σ' → X σ' = Y σ') →
      ∀ σ', AgreeOff (fun v => v ∈ xs ∨ D v) σ σ' → Φ X σ' = Φ Y σ')
    (hD : ∀ X, Ignores D X → Ignores D (Φ' X)) (hI : Ignores D I)
    (hle : ∀ j, Φ' (extendSem .down Φ' I j) ≤ Φ (extendSem .down Φ' I j))
    (hind : Inductive .down Φ' I k xs σ) : I σ ≤ fixpoint .gfp Φ σ := by
  set T := extendSem .down Φ' I (k - 1) with hT
  have hTD : ∀ j, Ignores D (extendSem .down Φ' I j) := extendSem_ignores hD hI
  refine (le_extendSem (Φ := Φ') I (k - 1) σ).trans
    (le_gfp_of_local (K := AgreeOff (fun v => v ∈ xs ∨ D v) σ) hframe (T := T) (fun σ'' hs => ?_)
      (AgreeOff.refl _ σ))
  refine le_trans ?_ (hle (k - 1) σ'')
  obtain ⟨σ', h1, h2⟩ := agreeOff_split hs
  have hI' : I σ'' ≤ Φ' T σ'' := by
    rw [hI _ _ h2, hD T (hTD _) _ _ h2]
    exact hind σ' h1
  rw [hT]
  cases hk : k - 1 with
  | zero => rw [hT, hk] at hI'; exact hI'
  | succ j =>
    rw [hT, hk] at hI'
    exact max_le hI' (hmono (extendSem_le_succ hmono I j) σ'')

theorem kInduction_up {Φ Φ' : Exp → Exp} (hmono : Monotone Φ') {I : Exp} {k : Nat} {xs : List Var}
    {D : Var → Prop} {σ : Env}
    (hframe : ∀ X Y, (∀ σ', AgreeOff (fun v => v ∈ xs ∨ D v) σ σ' → X σ' = Y σ') →
      ∀ σ', AgreeOff (fun v => v ∈ xs ∨ D v) σ σ' → Φ X σ' = Φ Y σ')
    (hD : ∀ X, Ignores D X → Ignores D (Φ' X)) (hI : Ignores D I)
    (hle : ∀ j, Φ (extendSem .up Φ' I j) ≤ Φ' (extendSem .up Φ' I j))
    (hind : Inductive .up Φ' I k xs σ) : fixpoint .lfp Φ σ ≤ I σ := by
  set T := extendSem .up Φ' I (k - 1) with hT
  have hTD : ∀ j, Ignores D (extendSem .up Φ' I j) := extendSem_ignores hD hI
  refine (lfp_le_of_local (K := AgreeOff (fun v => v ∈ xs ∨ D v) σ) hframe (T := T) (fun σ'' hs => ?_)
      (AgreeOff.refl _ σ)).trans (extendSem_le (Φ := Φ') I (k - 1) σ)
  refine (hle (k - 1) σ'').trans ?_
  obtain ⟨σ', h1, h2⟩ := agreeOff_split hs
  have hI' : Φ' T σ'' ≤ I σ'' := by
    rw [hI _ _ h2, hD T (hTD _) _ _ h2]
    exact hind σ' h1
  rw [hT]
  cases hk : k - 1 with
  | zero => rw [hT, hk] at hI'; exact hI'
  | succ j =>
    rw [hT, hk] at hI'
    exact le_min hI' (hmono (extendSem_succ_le hmono I j) σ'')

end Caesar
