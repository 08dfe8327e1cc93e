import Verif.Lattice
import Mathlib.Topology.Algebra.InfiniteSum.ENNReal
import Mathlib.Data.Nat.Choose.Basic

/-!
# Specification: documented meaning of HeyVL statements

Transcribed from the documentation, independently of the implementation:
`website/docs/heyvl/statements.md:1-233`, `website/docs/stdlib/distributions.md` and, for loops,
`website/docs/proof-rules/README.md` (least/greatest fixed point of the loop-characteristic function).
-/

open scoped ENNReal NNReal

namespace Caesar

variable [Doms] [Interp]

/-- Expectations: functions from states to extended nonnegative reals. -/
abbrev Exp := Env → ℝ≥0∞

/-- `σ'` differs from `σ` at most in the variables `xs`. -/
def Agree (xs : List Var) (σ σ' : Env) : Prop := ∀ v, v ∉ xs → σ' v = σ v

/-- Probability of each outcome of a built-in distribution
(`website/docs/stdlib/distributions.md`). `p` odds `pa : pb` mean probability `pa/(pa+pb)`. -/
noncomputable def DistCall.pmf : {t : Ty} → DistCall t → Env → t.den → ℝ≥0∞
  | _, .ber pa pb, _ => fun (r : Prop) =>
      open Classical in if r then (pa : ℝ≥0∞) / (pa + pb) else (pb : ℝ≥0∞) / (pa + pb)
  | _, .flip p, σ => fun (r : Prop) =>
      open Classical in if r then ENNReal.ofNNReal (p.eval σ) else 1 - ENNReal.ofNNReal (p.eval σ)
  | _, .unif a b, _ => fun (r : ℕ) => if a ≤ r ∧ r ≤ b then 1 / ((b + 1 - a : ℕ) : ℝ≥0∞) else 0
  | _, .binom n pa pb, _ => fun (r : ℕ) =>
      (n.choose r : ℝ≥0∞) * ((pa : ℝ≥0∞) / (pa + pb)) ^ r * ((pb : ℝ≥0∞) / (pa + pb)) ^ (n - r)
  | _, .hyper pN k pn, _ => fun (r : ℕ) =>
      if r ≤ pn then ((k.choose r * (pN - k).choose (pn - r) : ℕ) : ℝ≥0∞) / (pN.choose pn : ℝ≥0∞) else 0

/-- Expected value of `f` under a built-in distribution. -/
noncomputable def DistCall.expect {t : Ty} (d : DistCall t) (σ : Env) (f : t.den → ℝ≥0∞) : ℝ≥0∞ :=
  ∑' a, d.pmf σ a * f a

/-- Which fixed point gives a loop its meaning
(`src/proof_rules/mod.rs:80-90`, least for `wp`/`ert`, greatest for `wlp`). -/
inductive LoopSem where
  | lfp | gfp
  deriving DecidableEq

/-- What is needed to give meaning to loops and procedure calls. -/
structure SemCtx where
  loop : LoopSem
  /-- Meaning of `lhs = callee(args)` as a transformer of expectations. -/
  call : List Var → Ident → List ((t : Ty) × Expr t) → Exp → Exp

/-- Fixed points of an (order preserving) map on expectations: the least pre-fixed point and the greatest
post-fixed point. -/
noncomputable def fixpoint (k : LoopSem) (Φ : Exp → Exp) : Exp :=
  match k with
  | .lfp => sInf {X | Φ X ≤ X}
  | .gfp => sSup {X | X ≤ Φ X}

open Classical in
/-- The documented verification condition semantics `vc[S](φ)` (`website/docs/heyvl/statements.md`). -/
noncomputable def vcSem (C : SemCtx) : Stmt → Exp → Exp
  | .skip, φ => φ
  | .seq a b, φ => vcSem C a (vcSem C b φ)
  | .varDecl _, φ => φ
  | .varInit x e, φ => fun σ => φ (σ.upd x (e.eval σ))
  | .assign x e, φ => fun σ => φ (σ.upd x (e.eval σ))
  | .sample _ x (t := t) d, φ => fun σ => d.expect σ (fun a => φ (σ.upd ⟨x, t⟩ a))
  | .call _ lhs f args, φ => C.call lhs f args φ
  | .havoc .down xs, φ => fun σ => ⨅ σ' ∈ {σ' | Agree xs σ σ'}, φ σ'
  | .havoc .up xs, φ => fun σ => ⨆ σ' ∈ {σ' | Agree xs σ σ'}, φ σ'
  | .assert .down e, φ => fun σ => min (e.ev σ) (φ σ)
  | .assert .up e, φ => fun σ => max (e.ev σ) (φ σ)
  | .assume .down e, φ => fun σ => if e.ev σ ≤ φ σ then ⊤ else φ σ
  | .assume .up e, φ => fun σ => if e.ev σ ≥ φ σ then 0 else φ σ
  | .compare .down e, φ => fun σ => if e.ev σ ≤ φ σ then ⊤ else 0
  | .compare .up e, φ => fun σ => if e.ev σ ≥ φ σ then 0 else ⊤
  | .negate .down, φ => fun σ => if φ σ = 0 then ⊤ else 0
  | .negate .up, φ => fun σ => if φ σ = ⊤ then 0 else ⊤
  | .validate .down, φ => fun σ => if φ σ = ⊤ then ⊤ else 0
  | .validate .up, φ => fun σ => if φ σ = 0 then 0 else ⊤
  | .tick e, φ => fun σ => φ σ + e.ev σ
  | .weigh e, φ => fun σ => e.ev σ * φ σ
  | .demonic a b, φ => fun σ => min (vcSem C a φ σ) (vcSem C b φ σ)
  | .angelic a b, φ => fun σ => max (vcSem C a φ σ) (vcSem C b φ σ)
  | .additive a b, φ => fun σ => vcSem C a φ σ + vcSem C b φ σ
  | .ite c a b, φ => fun σ => if c.tv σ then vcSem C a φ σ else vcSem C b φ σ
  | .while c body, φ => fixpoint C.loop (fun X σ => if c.tv σ then vcSem C body X σ else φ σ)
  | .annot _ s, φ => vcSem C s φ
  | .label _, φ => φ

end Caesar
