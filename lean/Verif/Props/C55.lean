import Verif.Driver.Entailment
import Verif.Procs.SpecCallSound
import Verif.Props.C10

/-!
# C55: the entailment command

`website/docs/caesar/entailment.md`: for each pair of a coproc `C` and a proc `P`, the command checks `vc[C](0) ≤ vc[P](∞)`; before comparing, the
parameters of `P` are renamed to those of `C`.
-/

open scoped ENNReal NNReal

namespace Caesar
set_option linter.unusedSectionVars false

/-! ## Parameters -/

theorem mapParams_ok {xs ys : List Var} (hl : xs.length = ys.length) (m : List (Var × Var)) :
    mapParams xs ys = .ok m ↔
      xs.map (fun x => (x.id.name, x.ty)) = ys.map (fun y => (y.id.name, y.ty)) ∧ m = xs.zip ys := by
  induction xs generalizing ys m with
  | nil =>
    cases ys with
    | nil => simp [mapParams, eq_comm]
    | cons y ys => simp at hl
  | cons x xs ih =>
    cases ys with
    | nil => simp at hl
    | cons y ys =>
      have hl' : xs.length = ys.length := by simpa using hl
      unfold mapParams
      by_cases h1 : x.id.name = y.id.name
      · by_cases h2 : x.ty = y.ty
        · rw [if_neg (not_not.2 h1), if_neg (not_not.2 h2)]
          cases hm : mapParams xs ys with
          | error e =>
            have := ih hl' (xs.zip ys)
            rw [hm] at this
            simp only [reduceCtorEq, false_iff, and_true] at this
            simp [Except.map, this]
          | ok m' =>
            obtain ⟨h3, h4⟩ := (ih hl' m').1 hm
            simp [Except.map, h1, h2, h3, h4, eq_comm]
        · rw [if_neg (not_not.2 h1), if_pos h2]
          simp [h2]
      · rw [if_pos h1]
        simp [h1]

/-- A pair is accepted exactly if the first procedure is a coproc, the second a proc, and the lists of (inputs and then outputs) have the same names and types in the
same order; the parameters are then paired by position. -/
theorem C55_mapping (a b : Proc) (m : List (Var × Var)) :
    parameterMapping a b = .ok m ↔
      a.dir = .up ∧ b.dir = .down ∧
        (a.ins ++ a.outputs).map (fun x => (x.id.name, x.ty)) = (b.ins ++ b.outputs).map (fun y => (y.id.name, y.ty)) ∧
        m = (a.ins ++ a.outputs).zip (b.ins ++ b.outputs) := by
  unfold parameterMapping
  by_cases h1 : a.dir = .up
  · by_cases h2 : b.dir = .down
    · by_cases h3 : a.params.length = b.params.length
      · rw [if_neg (not_not.2 h1), if_neg (not_not.2 h2), if_neg (not_not.2 h3), mapParams_ok h3]
        simp [h1, h2, Proc.params]
      · rw [if_neg (not_not.2 h1), if_neg (not_not.2 h2), if_pos h3]
        simp only [reduceCtorEq, false_iff, not_and]
        intro _ _ h _
        exact h3 (by simpa [Proc.params] using congrArg List.length h)
    · rw [if_neg (not_not.2 h1), if_pos h2]
      simp [h2]
  · rw [if_pos h1]
    simp [h1]

section
variable [Doms] [Interp]

theorem seqEnv_zip (σ : Env) {xs ys : List Var} (ht : xs.map (fun x => (x.id.name, x.ty)) = ys.map (fun y => (y.id.name, y.ty)))
    (hn : (ys.map fun y => y.id.name).Nodup) : ∀ v : Var,
    seqEnv σ ((xs.zip ys).map fun p => ⟨p.2, .var p.1.id⟩) v = σ.pass ys (σ.valuesOf xs) v := by
  induction xs generalizing ys with
  | nil =>
    intro v
    cases ys with
    | nil => rfl
    | cons y ys => simp at ht
  | cons x xs ih =>
    cases ys with
    | nil => simp at ht
    | cons y ys =>
      intro v
      simp only [List.map_cons, List.cons.injEq, Prod.mk.injEq, List.nodup_cons, List.mem_map, not_exists, not_and] at ht hn
      have ih := fun v => ih ht.2 hn.2 v
      obtain ⟨⟨xn, xs'⟩, xt⟩ := x
      obtain ⟨yi, yt⟩ := y
      obtain ⟨⟨h1, h2⟩, h3⟩ := ht
      simp only at h1 h2
      subst h2
      show ((seqEnv σ ((xs.zip ys).map fun p => ⟨p.2, .var p.1.id⟩)).upd ⟨yi, xt⟩
        (seqEnv σ ((xs.zip ys).map fun p => ⟨p.2, .var p.1.id⟩) ⟨⟨xn, xs'⟩, xt⟩)) v = σ.pass (⟨yi, xt⟩ :: ys) (⟨xt, σ ⟨⟨xn, xs'⟩, xt⟩⟩ :: σ.valuesOf xs) v
      unfold Env.pass
      rw [dif_pos rfl]
      by_cases hv : v = ⟨yi, xt⟩
      · subst hv
        rw [Env.upd_same, Env.upd_same, ih]
        refine pass_notMem σ (fun hm => hn.1 _ hm ?_) _
        exact h1
      · rw [Env.upd_ne _ hv, Env.upd_ne _ hv, ih]

/-- The quantitative task of an accepted pair holds (is `∞` in all states) iff in every state the verification condition of the coproc is at most that of the proc, evaluated in the
state in which the proc's parameters have, all at once, the values of the coproc's parameters. -/
theorem C55_task (a b : Proc) (m : List (Var × Var)) (h : parameterMapping a b = .ok m) (hn : ((b.ins ++ b.outputs).map fun y => y.id.name).Nodup)
    (A B : Expr .eureal) :
    VcHolds .down (entailsExpr m A B) ↔
      ∀ σ : Env, A.ev σ ≤ B.ev (σ.pass (b.ins ++ b.outputs) (σ.valuesOf (a.ins ++ a.outputs))) := by
  obtain ⟨-, -, h3, rfl⟩ := (C55_mapping a b m).1 h
  refine forall_congr' fun σ => ?_
  have e : B.ev (σ.pass (b.ins ++ b.outputs) (σ.valuesOf (a.ins ++ a.outputs))) =
      (substPairs B (((a.ins ++ a.outputs).zip (b.ins ++ b.outputs)).map fun p => ⟨p.2, .var p.1.id⟩)).ev σ := by
    rw [substPairs_ev]
    exact Expr.eval_congr B fun v _ => (seqEnv_zip σ h3 hn v).symm
  rw [e]
  classical
  show (Expr.bin (.impl rfl) A _).ev σ = (⊤ : ℝ≥0∞) ↔ _
  rw [Expr.ev_impl]
  constructor
  · intro h'
    by_contra hc
    rw [if_neg hc] at h'
    exact hc (h' ▸ le_top)
  · exact fun h' => if_pos h'

/-! ## The verification conditions -/

/-- The statement contains no calls. -/
def Stmt.NoCalls : Stmt → Prop
  | .call _ _ _ _ => False
  | .seq a b => a.NoCalls ∧ b.NoCalls
  | .demonic a b => a.NoCalls ∧ b.NoCalls
  | .angelic a b => a.NoCalls ∧ b.NoCalls
  | .additive a b => a.NoCalls ∧ b.NoCalls
  | .ite _ a b => a.NoCalls ∧ b.NoCalls
  | .while _ s => s.NoCalls
  | .annot _ s => s.NoCalls
  | _ => True

omit [Doms] [Interp] in
theorem specCall_noCalls (procs : ProcTable) (d : Dir) {S : Stmt} (h : S.NoCalls) (declared : List Var) :
    specCall procs d S declared = some (S, declared) := by
  induction S generalizing declared with
  | call isDecl lhs f args => exact h.elim
  | seq a b iha ihb => simp [specCall, iha h.1, ihb h.2]
  | demonic a b iha ihb => simp [specCall, iha h.1, ihb h.2]
  | angelic a b iha ihb => simp [specCall, iha h.1, ihb h.2]
  | additive a b iha ihb => simp [specCall, iha h.1, ihb h.2]
  | ite c a b iha ihb => simp [specCall, iha h.1, ihb h.2]
  | «while» c s ih => simp [specCall, ih h]
  | annot an s ih => simp [specCall, ih h]
  | _ => rfl

/-- The conditions under which `vcgen` computes the documented meaning (`C01`), for statements without calls. -/
def Stmt.Plain (S : Stmt) : Prop := S.NoCalls ∧ S.NoValidate ∧ S.GoodDists

omit [Doms] [Interp] in
theorem plain_block {l : List Stmt} (h : ∀ S ∈ l, S.Plain) : (Stmt.block l).Plain := by
  induction l with
  | nil => exact ⟨trivial, trivial, trivial⟩
  | cons S l ih =>
    have h1 := h S List.mem_cons_self
    have h2 := ih fun S hS => h S (List.mem_cons_of_mem _ hS)
    exact ⟨⟨h1.1, h2.1⟩, ⟨h1.2.1, h2.2.1⟩, ⟨h1.2.2, h2.2.2⟩⟩

omit [Doms] [Interp] in
theorem encodeProcVerify_plain {p : Proc} {B : Stmt} (hB : p.body = some B) (h : B.Plain) :
    ∃ S, encodeProcVerify p = some (p.dir, S) ∧ S.Plain := by
  refine ⟨_, by rw [encodeProcVerify, hB], plain_block fun S hS => ?_⟩
  simp only [List.mem_append, List.mem_map, List.mem_singleton] at hS
  rcases hS with (⟨e, -, rfl⟩ | rfl) | ⟨e, -, rfl⟩
  · exact ⟨trivial, trivial, trivial⟩
  · exact h
  · exact ⟨trivial, trivial, trivial⟩

theorem procTask_ev (C : SemCtx) (procs : ProcTable) {declared declared' : List Var} {p : Proc} {B : Stmt} {e : Expr .eureal} (hB : p.body = some B) (hp : B.Plain)
    (h : procTask procs declared p = some (e, declared')) :
    e.ev = vcSem C (Stmt.block (p.requires.map fun e => wrapSuccess (.assume p.dir e))) (vcSem C B p.post) := by
  obtain ⟨S, hS, hS'⟩ := encodeProcVerify_plain hB hp
  unfold procTask at h
  rw [hS] at h
  simp only [Option.bind_eq_bind, Option.bind_some, specCall_noCalls procs p.dir hS'.1] at h
  cases hc : coreVc p.dir S with
  | error _ => rw [hc] at h; exact nomatch h
  | ok e' =>
    rw [hc] at h
    obtain ⟨rfl, rfl⟩ := Prod.mk.inj (Option.some.inj h)
    rw [← (vcSem_procVerify C hB hS).2]
    funext σ
    have ht : terminal p.dir = topLitInLattice p.dir := by cases p.dir <;> rfl
    rw [coreVc, ht] at hc
    exact C01_vcgen_meaning_no_validate C hc hS'.2.1 hS'.2.2 σ

theorem assumes_down_value (C : SemCtx) (es : List (Expr .eureal)) (φ : Exp) (σ : Env) (x : ℝ≥0∞) :
    x ≤ vcSem C (Stmt.block (es.map fun e => wrapSuccess (.assume .down e))) φ σ ↔ (⨅ e ∈ es, e.ev σ) ≤ φ σ ∨ x ≤ φ σ := by
  classical
  induction es generalizing x with
  | nil =>
    show x ≤ φ σ ↔ _
    rw [show (⨅ e ∈ ([] : List (Expr .eureal)), e.ev σ) = ⊤ by simp]
    exact ⟨Or.inr, fun h => h.elim (fun h => le_top.trans h) id⟩
  | cons e es ih =>
    show x ≤ (if e.ev σ ≤ vcSem C (Stmt.block (es.map fun e => wrapSuccess (.assume .down e))) φ σ then ⊤ else
        vcSem C (Stmt.block (es.map fun e => wrapSuccess (.assume .down e))) φ σ) ↔ _
    rw [show (⨅ e' ∈ e :: es, e'.ev σ) = min (e.ev σ) (⨅ e' ∈ es, e'.ev σ) by simp [iInf_or, iInf_inf_eq], min_le_iff]
    split
    · next h => exact ⟨fun _ => ((ih _).1 h).elim (fun h => .inl (.inr h)) (fun h => .inl (.inl h)), fun _ => le_top⟩
    · next h =>
      rw [ih x]
      constructor
      · rintro (h' | h')
        · exact .inl (.inr h')
        · exact .inr h'
      · rintro ((h' | h') | h')
        · exact absurd ((ih _).2 (.inr h')) h
        · exact .inl h'
        · exact .inr h'

theorem assumes_up_value (C : SemCtx) (es : List (Expr .eureal)) (φ : Exp) (σ : Env) (x : ℝ≥0∞) :
    vcSem C (Stmt.block (es.map fun e => wrapSuccess (.assume .up e))) φ σ ≤ x ↔ φ σ ≤ (⨆ e ∈ es, e.ev σ) ∨ φ σ ≤ x := by
  classical
  induction es generalizing x with
  | nil =>
    show φ σ ≤ x ↔ _
    rw [show (⨆ e ∈ ([] : List (Expr .eureal)), e.ev σ) = 0 by simp]
    exact ⟨Or.inr, fun h => h.elim (fun h => h.trans zero_le) id⟩
  | cons e es ih =>
    show (if e.ev σ ≥ vcSem C (Stmt.block (es.map fun e => wrapSuccess (.assume .up e))) φ σ then 0 else
        vcSem C (Stmt.block (es.map fun e => wrapSuccess (.assume .up e))) φ σ) ≤ x ↔ _
    rw [show (⨆ e' ∈ e :: es, e'.ev σ) = max (e.ev σ) (⨆ e' ∈ es, e'.ev σ) by simp [iSup_or, iSup_sup_eq], le_max_iff]
    split
    · next h => exact ⟨fun _ => ((ih _).1 h).elim (fun h => .inl (.inr h)) (fun h => .inl (.inl h)), fun _ => zero_le⟩
    · next h =>
      rw [ih x]
      constructor
      · rintro (h' | h')
        · exact .inl (.inr h')
        · exact .inr h'
      · rintro ((h' | h') | h')
        · exact absurd ((ih _).2 (.inr h')) h
        · exact .inl h'
        · exact .inr h'

/-- The entailment between the bodies of a coproc `a` and a proc `b`: in every state `σ`, with `τ` the state in which the parameters of `b` have the values of those of `a`,
the value of `a`'s body for its postcondition is at most the value of `b`'s body for its postcondition, or at most `a`'s precondition, or `b`'s precondition is at most
the value of `b`'s body. The last two cases are the reading of preconditions as assumptions in `vc[a](0)` and `vc[b](∞)`. -/
def Proc.Entails (C : SemCtx) (a b : Proc) (Ba Bb : Stmt) : Prop :=
  ∀ σ : Env, let τ := σ.pass (b.ins ++ b.outputs) (σ.valuesOf (a.ins ++ a.outputs))
    vcSem C Ba a.post σ ≤ a.pre σ ∨ b.pre τ ≤ vcSem C Bb b.post τ ∨ vcSem C Ba a.post σ ≤ vcSem C Bb b.post τ

/-- For two procedures without calls, the generated task holds iff the bodies entail each other in the sense of `Proc.Entails`.
Missing: calls, which are first replaced by specifications (`C24`, `C25`), and `validate` (`C01_not_full`). -/
theorem C55_pair_partial (C : SemCtx) (procs : ProcTable) (declared : List Var) (a b : Proc) (Ba Bb : Stmt) (e : Expr .eureal)
    (ha : a.body = some Ba) (hb : b.body = some Bb) (pa : Ba.Plain) (pb : Bb.Plain)
    (hn : ((b.ins ++ b.outputs).map fun y => y.id.name).Nodup) (h : pairTask procs declared a b = some e) :
    VcHolds .down e ↔ a.Entails C b Ba Bb := by
  unfold pairTask at h
  cases hm : parameterMapping a b with
  | error _ => rw [hm] at h; exact nomatch h
  | ok m =>
    rw [hm] at h
    simp only [Option.bind_eq_bind, Option.bind_eq_some_iff, Prod.exists] at h
    obtain ⟨A, d1, hA, B, d2, hB, he⟩ := h
    obtain rfl := Option.some.inj he
    obtain ⟨h1, h2, -, -⟩ := (C55_mapping a b m).1 hm
    rw [C55_task a b m hm hn, procTask_ev C procs ha pa hA, procTask_ev C procs hb pb hB, h1, h2]
    refine forall_congr' fun σ => ?_
    rw [assumes_up_value, assumes_down_value]
    rw [show a.pre = combine .up a.requires by rw [Proc.pre, h1], show b.pre = combine .down b.requires by rw [Proc.pre, h2]]
    rfl

/-- Without preconditions, the documented inequality between the bodies. -/
theorem C55_no_pre_partial (C : SemCtx) (procs : ProcTable) (declared : List Var) (a b : Proc) (Ba Bb : Stmt) (e : Expr .eureal)
    (ha : a.body = some Ba) (hb : b.body = some Bb) (pa : Ba.Plain) (pb : Bb.Plain) (ra : a.requires = []) (rb : b.requires = [])
    (hn : ((b.ins ++ b.outputs).map fun y => y.id.name).Nodup) (h : pairTask procs declared a b = some e) :
    VcHolds .down e ↔ ∀ σ : Env,
      vcSem C Ba a.post σ ≤ vcSem C Bb b.post (σ.pass (b.ins ++ b.outputs) (σ.valuesOf (a.ins ++ a.outputs))) := by
  rw [C55_pair_partial C procs declared a b Ba Bb e ha hb pa pb hn h]
  unfold pairTask at h
  cases hm : parameterMapping a b with
  | error _ => rw [hm] at h; exact nomatch h
  | ok m =>
    obtain ⟨h1, h2, -, -⟩ := (C55_mapping a b m).1 hm
    refine forall_congr' fun σ => ?_
    have e1 : a.pre σ = (0 : ℝ≥0∞) := by
      rw [Proc.pre, h1, ra]
      exact (show (⨆ e ∈ ([] : List (Expr .eureal)), e.ev σ) = 0 by simp)
    have e2 : b.pre (σ.pass (b.ins ++ b.outputs) (σ.valuesOf (a.ins ++ a.outputs))) = (⊤ : ℝ≥0∞) := by
      rw [Proc.pre, h2, rb]
      exact (show (⨅ e ∈ ([] : List (Expr .eureal)), e.ev (σ.pass (b.ins ++ b.outputs) (σ.valuesOf (a.ins ++ a.outputs)))) = ⊤ by simp)
    show _ ∨ _ ∨ _ ↔ _
    rw [e1, e2]
    constructor
    · rintro (h | h | h)
      · exact h.trans zero_le
      · exact le_top.trans h
      · exact h
    · exact fun h => .inr (.inr h)

/-- The Boolean formula given to the solver is valid iff the bodies entail each other, under the conditions of `C10_lowering_partial` on the task.
Missing: as for `C55_pair_partial` and `C10_lowering_partial`. -/
theorem C55_formula_partial {o : Oracle} (ho : o.Sound) (span span' span'' : Nat) (opts : LowerOptions) (s : UState) (C : SemCtx) (procs : ProcTable)
    (declared : List Var) (a b : Proc) (Ba Bb : Stmt) (e : Expr .eureal) (ha : a.body = some Ba) (hb : b.body = some Bb) (pa : Ba.Plain) (pb : Bb.Plain)
    (hn : ((b.ins ++ b.outputs).map fun y => y.id.name).Nodup) (h : pairTask procs declared a b = some e)
    (hd : ∀ v, e.Occurs v → v.id ∈ s.1.decls) (hq : opts.noQelim = false → e.freshVars = []) (hr : opts.optRel = true → e.CmpTypes RelCmp) :
    ∃ N, ∀ n ≥ N, ∃ f s', lowerQuant o span span' span'' opts n .down e s = some (f, s') ∧ ((∀ σ : Env, f.tv σ) ↔ a.Entails C b Ba Bb) := by
  obtain ⟨N, hN⟩ := C10_lowering_partial ho span span' span'' opts .down e s hd hq hr
  refine ⟨N, fun n hn' => ?_⟩
  obtain ⟨f, s', h1, h2⟩ := hN n hn'
  exact ⟨f, s', h1, h2.trans (C55_pair_partial C procs declared a b Ba Bb e ha hb pa pb hn h)⟩

end

/-! ## The verdict -/

/-- The full property of the verdict: for an even number of procedures, and if no error was reported before, the command exits with code 0 iff the solver proved the entailment of every
pair (first and second, third and fourth, ... procedure). -/
def C55_full : Prop := ∀ (α : Type) (run : α → α → Except Driver.CaesarError Driver.ProveResult) (procs : List α), 2 ∣ procs.length →
  (Driver.entailmentExit (.ok (false, procs)) run = 0 ↔
    ∀ i (h : 2 * i + 1 < procs.length), run procs[2 * i] procs[2 * i + 1] = .ok .proof)

/-- The command ignores counterexamples. -/
theorem C55_not_full : ¬ C55_full := by
  intro h
  have h1 := (h Nat (fun _ _ => .ok .counterexample) [1, 2] (by decide)).1 (by decide) 0 (by decide)
  exact absurd h1 (by simp)

theorem entailmentLoop_ok {α : Type} (run : α → α → Except Driver.CaesarError Driver.ProveResult) (n : Nat) (procs : List α) (hn : procs.length = 2 * n) :
    (∀ b, Driver.entailmentLoop run procs = .ok b → b = true) ∧
    ((∃ b, Driver.entailmentLoop run procs = .ok b) ↔ ∀ i (h : 2 * i + 1 < procs.length), ∃ r, run procs[2 * i] procs[2 * i + 1] = .ok r ∧
      r ≠ .unknown .interrupted ∧ r ≠ .unknown .timeout) := by
  induction n generalizing procs with
  | zero =>
    obtain rfl : procs = [] := List.length_eq_zero_iff.1 (by omega)
    exact ⟨fun b h => (Except.ok.inj h).symm, ⟨fun _ i h => by simp at h, fun _ => ⟨true, rfl⟩⟩⟩
  | succ n ih =>
    match procs, hn with
    | [], hn => simp at hn
    | [_], hn => simp at hn; omega
    | a :: b :: rest, hn =>
      have ih := ih rest (by simp at hn; omega)
      have shift : (∀ i (h : 2 * i + 1 < (a :: b :: rest).length), ∃ r, run (a :: b :: rest)[2 * i] (a :: b :: rest)[2 * i + 1] = .ok r ∧
          r ≠ .unknown .interrupted ∧ r ≠ .unknown .timeout) ↔
          (∃ r, run a b = .ok r ∧ r ≠ .unknown .interrupted ∧ r ≠ .unknown .timeout) ∧
          (∀ i (h : 2 * i + 1 < rest.length), ∃ r, run rest[2 * i] rest[2 * i + 1] = .ok r ∧ r ≠ .unknown .interrupted ∧ r ≠ .unknown .timeout) := by
        constructor
        · intro h
          exact ⟨h 0 (by simp), fun i hi => h (i + 1) (by simp; omega)⟩
        · rintro ⟨h1, h2⟩ i hi
          cases i with
          | zero => exact h1
          | succ i => exact h2 i (by simp at hi; omega)
      rw [shift]
      unfold Driver.entailmentLoop
      cases hr : run a b with
      | error e => exact ⟨fun _ h => (nomatch h), fun ⟨_, h⟩ => (nomatch h), fun ⟨⟨_, h, _⟩, _⟩ => nomatch h⟩
      | ok r =>
        match r with
        | .proof => exact ⟨ih.1, fun h => ⟨⟨.proof, rfl, by simp, by simp⟩, ih.2.1 h⟩, fun h => ih.2.2 h.2⟩
        | .counterexample => exact ⟨ih.1, fun h => ⟨⟨.counterexample, rfl, by simp, by simp⟩, ih.2.1 h⟩, fun h => ih.2.2 h.2⟩
        | .unknown .other => exact ⟨ih.1, fun h => ⟨⟨.unknown .other, rfl, by simp, by simp⟩, ih.2.1 h⟩, fun h => ih.2.2 h.2⟩
        | .unknown .interrupted =>
          exact ⟨fun _ h => (nomatch h), fun ⟨_, h⟩ => (nomatch h), fun ⟨⟨_, h, h', _⟩, _⟩ => absurd (Except.ok.inj h).symm h'⟩
        | .unknown .timeout =>
          exact ⟨fun _ h => (nomatch h), fun ⟨_, h⟩ => (nomatch h), fun ⟨⟨_, h, _, h'⟩, _⟩ => absurd (Except.ok.inj h).symm h'⟩

/-- What the exit code says: it is 0 iff the solver returned for every pair (a proof, a counterexample or "unknown") without an error, an interrupt or a timeout.
Missing: code 0 does not imply that the entailments were proved (`C55_not_full`). -/
theorem C55_exit_partial {α : Type} (run : α → α → Except Driver.CaesarError Driver.ProveResult) (procs : List α) (hp : 2 ∣ procs.length) :
    Driver.entailmentExit (.ok (false, procs)) run = 0 ↔
      ∀ i (h : 2 * i + 1 < procs.length), ∃ r, run procs[2 * i] procs[2 * i + 1] = .ok r ∧ r ≠ .unknown .interrupted ∧ r ≠ .unknown .timeout := by
  obtain ⟨n, hn⟩ := hp
  obtain ⟨h1, h2⟩ := entailmentLoop_ok run n procs hn
  rw [← h2]
  unfold Driver.entailmentExit
  cases h : Driver.entailmentLoop run procs with
  | error e =>
    refine ⟨fun h' => ?_, fun ⟨_, h'⟩ => nomatch h'⟩
    dsimp only at h'
    rw [h] at h'
    cases e <;> exact absurd h' (by decide)
  | ok b =>
    obtain rfl := h1 b h
    exact ⟨fun _ => ⟨true, rfl⟩, fun _ => by dsimp only; rw [h]; rfl⟩

/-- If the entailment of every pair is proved, the exit code is 0. -/
theorem C55_proved_exit_zero {α : Type} (run : α → α → Except Driver.CaesarError Driver.ProveResult) (procs : List α) (hp : 2 ∣ procs.length)
    (h : ∀ i (h : 2 * i + 1 < procs.length), run procs[2 * i] procs[2 * i + 1] = .ok .proof) :
    Driver.entailmentExit (.ok (false, procs)) run = 0 :=
  (C55_exit_partial run procs hp).2 fun i hi => ⟨.proof, h i hi, by simp, by simp⟩

/-- With an odd number of procedures the exit code is never 0 (the last chunk panics). -/
theorem C55_odd {α : Type} (run : α → α → Except Driver.CaesarError Driver.ProveResult) (procs : List α) (hp : ¬ 2 ∣ procs.length) (emitted : Bool) :
    Driver.entailmentExit (.ok (emitted, procs)) run ≠ 0 := by
  have key : ∀ (n : Nat) (procs : List α), procs.length = 2 * n + 1 → ∃ e, Driver.entailmentLoop run procs = .error e := by
    intro n
    induction n with
    | zero =>
      intro procs h
      obtain ⟨a, rfl⟩ := List.length_eq_one_iff.1 h
      exact ⟨_, rfl⟩
    | succ n ih =>
      intro procs h
      match procs, h with
      | a :: b :: rest, h =>
        obtain ⟨e, he⟩ := ih rest (by simp at h; omega)
        unfold Driver.entailmentLoop
        split
        · exact ⟨_, rfl⟩
        · exact ⟨_, rfl⟩
        · exact ⟨_, rfl⟩
        · exact ⟨e, he⟩
  obtain ⟨e, he⟩ := key (procs.length / 2) procs (by omega)
  unfold Driver.entailmentExit
  dsimp only
  rw [he]
  cases e <;> simp [Driver.exitCode, Except.map]

/-! ## Non-vacuity -/

/-- `coproc c(x: EUReal) -> (y: EUReal) post y { y = x }`. -/
def c55Coproc : Proc :=
  ⟨⟨"c", 0⟩, .up, [⟨⟨⟨"x", 1⟩, .eureal⟩, 2⟩], [⟨⟨"y", 3⟩, .eureal⟩], [.ensures (.var ⟨"y", 3⟩)],
    some (.assign ⟨⟨"y", 3⟩, .eureal⟩ (.var ⟨"x", 1⟩))⟩

/-- `proc p(x: EUReal) -> (y: EUReal) post y { y = x; reward x }`. -/
def c55Proc : Proc :=
  ⟨⟨"p", 10⟩, .down, [⟨⟨⟨"x", 11⟩, .eureal⟩, 12⟩], [⟨⟨"y", 13⟩, .eureal⟩], [.ensures (.var ⟨"y", 13⟩)],
    some (.seq (.assign ⟨⟨"y", 13⟩, .eureal⟩ (.var ⟨"x", 11⟩)) (.tick (.var ⟨"x", 11⟩)))⟩

example : ∃ m, parameterMapping c55Coproc c55Proc = .ok m := ⟨_, rfl⟩

example : (pairTask (fun _ => none) [] c55Coproc c55Proc).isSome = true := rfl

/-- The pair is entailed: `x ≤ x + x`. -/
example [Doms] [Interp] (C : SemCtx) (e : Expr .eureal) (h : pairTask (fun _ => none) [] c55Coproc c55Proc = some e) : VcHolds .down e := by
  refine (C55_no_pre_partial C (fun _ => none) [] c55Coproc c55Proc _ _ e rfl rfl ⟨trivial, trivial, trivial⟩
    ⟨⟨trivial, trivial⟩, ⟨trivial, trivial⟩, ⟨trivial, trivial⟩⟩ rfl rfl (by decide) h).2 fun σ => ?_
  have h1 : vcSem C (.assign ⟨⟨"y", 3⟩, .eureal⟩ (.var ⟨"x", 1⟩)) c55Coproc.post σ = σ ⟨⟨"x", 1⟩, .eureal⟩ := by
    show (⨆ e ∈ c55Coproc.ensures, e.ev (σ.upd ⟨⟨"y", 3⟩, .eureal⟩ (σ ⟨⟨"x", 1⟩, .eureal⟩))) = _
    rw [show c55Coproc.ensures = [.var ⟨"y", 3⟩] from rfl]
    simp only [List.mem_singleton, iSup_iSup_eq_left]
    exact (Env.upd_same σ ⟨⟨"y", 3⟩, .eureal⟩ (σ ⟨⟨"x", 1⟩, .eureal⟩) : _)
  rw [h1]
  set τ := σ.pass (c55Proc.ins ++ c55Proc.outputs) (σ.valuesOf (c55Coproc.ins ++ c55Coproc.outputs)) with hτ
  have h2 : τ ⟨⟨"x", 11⟩, .eureal⟩ = σ ⟨⟨"x", 1⟩, .eureal⟩ := by
    rw [hτ]
    show σ.pass (⟨⟨"x", 11⟩, .eureal⟩ :: _) (⟨.eureal, σ ⟨⟨"x", 1⟩, .eureal⟩⟩ :: _) _ = _
    unfold Env.pass
    rw [dif_pos rfl]
    exact Env.upd_same _ _ _
  rw [← h2]
  have h3 : (τ.upd ⟨⟨"y", 13⟩, .eureal⟩ (τ ⟨⟨"x", 11⟩, .eureal⟩)) ⟨⟨"x", 11⟩, .eureal⟩ = τ ⟨⟨"x", 11⟩, .eureal⟩ :=
    Env.upd_ne _ (by decide) _
  exact le_trans (le_of_eq h3.symm) (le_add_self (α := ℝ≥0∞))

/-- The verdict for a proved and a refuted pair. -/
example : Driver.entailmentExit (.ok (false, [0, 1, 2, 3])) (fun _ _ => .ok .proof) = 0 := rfl
example : Driver.entailmentExit (.ok (false, [0, 1, 2, 3])) (fun _ _ => .ok .counterexample) = 0 := rfl

end Caesar
