import Verif.Syntax
import Mathlib.Data.NNRat.Lemmas
import Mathlib.Data.Nat.Choose.Basic

/-!
# Model of verification condition generation

Models `src/vc/vcgen.rs` and `src/intrinsic/distributions.rs`.
-/

namespace Caesar

/-- Ways in which verification condition generation does not return an expression. (`src/vc/vcgen.rs:179,195,234-243`) -/
inductive VcError where
  /-- `unsupported_while_loop_diagnostic` (`src/vc/vcgen.rs:248-257`). -/
  | whileLoop
  /-- `unsupported_stmt_diagnostic` (`src/vc/vcgen.rs:259-264`): annotation which is not a slicing one. -/
  | unsupported
  /-- Panic of `generate_assign` on a procedure call (`src/vc/vcgen.rs:234`). -/
  | callPanic
  /-- Panic of `Ratio::new(_, 0)` in `Dist::from_odds` (`src/intrinsic/distributions.rs:215-223`). -/
  | zeroOdds
  /-- Panic on arithmetic underflow of `pb - pa` (`src/intrinsic/distributions.rs:258`). -/
  | underflow
  /-- Panic of `.unwrap()` on an empty distribution (`src/intrinsic/distributions.rs:292`). -/
  | emptyDist
  deriving DecidableEq, Repr

/-- `Dist` (`src/intrinsic/distributions.rs:211-212`): list of (probability, value). -/
abbrev Dist (t : Ty) := List (Expr .eureal × Expr t)

/-- `Dist::from_odds` (`src/intrinsic/distributions.rs:215-223`). `u128` is modelled by `Nat`
(no overflow). `Ratio::new` panics if the denominator is zero; this happens iff there is at least one entry and
the total is zero. -/
def Dist.fromOdds {t : Ty} (pairs : List (Nat × Expr t)) : Except VcError (Dist t) :=
  let total := (pairs.map Prod.fst).sum
  if total = 0 ∧ pairs ≠ [] then .error .zeroOdds
  else .ok (pairs.map fun (odds, val) => (.lit (.efrac ((odds : ℚ≥0) / (total : ℚ≥0))), val))

/-- The closures in `init_distributions` and `Dist::ber`, `flip`, `unif`, `binom`, `hyper`
(`src/intrinsic/distributions.rs:114-178, 226-275`).
The ranges `a..=b` are `List.range'`. `num::integer::binomial` is `Nat.choose`. -/
def DistCall.apply : {t : Ty} → DistCall t → Except VcError (Dist t)
  | _, .ber pa pb => Dist.fromOdds [(pa, Expr.boolLit true), (pb, Expr.boolLit false)]
  | _, .flip p =>
      let pb : Expr .ureal := .bin (.sub rfl) (.cast .uintUReal (Expr.uintLit 1)) p
      .ok [(.cast .urealEUReal p, Expr.boolLit true), (.cast .urealEUReal pb, Expr.boolLit false)]
  | _, .unif a b => Dist.fromOdds ((List.range' a (b + 1 - a)).map fun v => (1, Expr.uintLit v))
  | _, .binom n pa pb =>
      if pb < pa then .error .underflow
      else Dist.fromOdds ((List.range (n + 1)).map fun k =>
        (n.choose k * pa ^ k * pb ^ (pb - pa), Expr.uintLit k))
  | _, .hyper population successes draws =>
      let lo := draws + successes - population
      let hi := min draws successes
      let ks := List.range' lo (hi + 1 - lo)
      if ks ≠ [] ∧ population < successes then .error .underflow
      else Dist.fromOdds (ks.map fun k =>
        (successes.choose k * (population - successes).choose (draws - k), Expr.uintLit k))

/-- `Dist::expectation` (`src/intrinsic/distributions.rs:280-293`): `reduce` is a left fold over the
non-empty list; `None.unwrap()` panics. -/
def Dist.expectation {t : Ty} (d : Dist t) (x : Ident) (post : Expr .eureal) :
    Except VcError (Expr .eureal) :=
  match d.map (fun (prob, val) => Expr.bin (.mul rfl) prob (.subst ⟨x, t⟩ val post)) with
  | [] => .error .emptyDist
  | e :: es => .ok (es.foldl (fun a b => .bin (.add rfl) a b) e)

/-- `Vcgen::vcgen_stmt`, `vcgen_stmts`, `vcgen_block`, `generate_assign` (`src/vc/vcgen.rs:42-245`) with
`explanation = None` and without resource limits. The spec type is `EUReal`. -/
def vcgen : Stmt → Expr .eureal → Except VcError (Expr .eureal)
  | .skip, post => .ok post
  | .seq a b, post => do
      let post' ← vcgen b post
      vcgen a post'
  | .varDecl _, post => .ok post
  | .varInit x e, post => .ok (.subst x e post)
  | .assign x e, post => .ok (.subst x e post)
  | .sample _ x d, post => do
      let dist ← d.apply
      dist.expectation x post
  | .call _ _ _ _, _ => .error .callPanic
  | .havoc .down xs, post => .ok (.quant .inf rfl (xs.map (⟨false, ·⟩)) post)
  | .havoc .up xs, post => .ok (.quant .sup rfl (xs.map (⟨false, ·⟩)) post)
  | .assert .down e, post => .ok (.bin (.inf rfl) e post)
  | .assert .up e, post => .ok (.bin (.sup rfl) e post)
  | .assume .down e, post => .ok (.bin (.impl rfl) e post)
  | .assume .up e, post => .ok (.bin (.coimpl rfl) e post)
  | .compare .down e, post => .ok (.bin (.compare rfl) e post)
  | .compare .up e, post => .ok (.bin (.cocompare rfl) e post)
  | .negate .down, post => .ok (.un (.not rfl) post)
  | .negate .up, post => .ok (.un (.non rfl) post)
  | .validate .down, post =>
      match post with
      | .bin (.impl _) l r => .ok (.bin (.compare rfl) l r)
      | post => .ok (.un (.not rfl) (.un (.not rfl) post))
  | .validate .up, post =>
      match post with
      | .bin (.coimpl _) l r => .ok (.bin (.cocompare rfl) l r)
      | post => .ok (.un (.non rfl) (.un (.non rfl) post))
  | .tick e, post => .ok (.bin (.add rfl) e post)
  | .weigh e, post => .ok (.bin (.mul rfl) e post)
  | .demonic a b, post => do
      let p1 ← vcgen a post
      let p2 ← vcgen b post
      .ok (.bin (.inf rfl) p1 p2)
  | .angelic a b, post => do
      let p1 ← vcgen a post
      let p2 ← vcgen b post
      .ok (.bin (.sup rfl) p1 p2)
  | .additive a b, post => do
      let p1 ← vcgen a post
      let p2 ← vcgen b post
      .ok (.bin (.add rfl) p1 p2)
  | .ite c a b, post => do
      let p1 ← vcgen a post
      let p2 ← vcgen b post
      .ok (.ite c p1 p2)
  | .while _ _, _ => .error .whileLoop
  | .annot (.slicing _) s, post => vcgen s post
  | .annot _ _, _ => .error .unsupported
  | .label _, post => .ok post

end Caesar
