import Verif.Vc.Explain
import Verif.Procs.Spec

/-!
# What explanations should show
-/

namespace Caesar
namespace Explain

/-- The places of a statement at which something is to be shown: before every statement other than `validate`, at the ends of the branches and of the bodies of
loops. -/
def places : Stmt → List Place
  | .skip => []
  | .validate _ => []
  | .seq a b => (places a).map (.fst :: ·) ++ (places b).map (.snd :: ·)
  | .demonic a b | .angelic a b | .additive a b | .ite _ a b =>
    [] :: [.fst, .fin] :: [.snd, .fin] :: ((places a).map (.fst :: ·) ++ (places b).map (.snd :: ·))
  | .annot (.invariant _) (.while _ s) => [] :: [.fst, .fin] :: (places s).map (.fst :: ·)
  | .annot (.unroll 0 _) (.while _ _) => [[]]
  | .annot (.unroll (_ + 1) _) (.while _ s) => [] :: [.fst, .fin] :: (places s).map (.fst :: ·)
  | .annot _ s => places s
  | _ => [[]]

variable [Doms] [Interp]

/-- The expectation at a place of a statement with the given expectation after the statement. -/
noncomputable def expAt (C : SemCtx) : Stmt → Exp → Place → Exp
  | S, φ, [] => vcSem C S φ
  | .annot _ s, φ, p => expAt C s φ p
  | _, φ, [.fin] => φ
  | .seq a b, φ, .fst :: p => expAt C a (vcSem C b φ) p
  | .seq _ b, φ, .snd :: p => expAt C b φ p
  | .demonic a _, φ, .fst :: p | .angelic a _, φ, .fst :: p | .additive a _, φ, .fst :: p | .ite _ a _, φ, .fst :: p => expAt C a φ p
  | .demonic _ b, φ, .snd :: p | .angelic _ b, φ, .snd :: p | .additive _ b, φ, .snd :: p | .ite _ _ b, φ, .snd :: p => expAt C b φ p
  | _, φ, _ => φ

/-! ## High-level programs

Written from the comments in the code (`src/vc/explain.rs:275-281,324-325`, `src/vc/vcgen.rs:191-192`), since there is no documentation: a call is explained by the precondition of the procedure, a loop with
an invariant by the invariant, an unrolled loop by its unrolling. -/

/-- Calls mean the precondition of the procedure for the values of the arguments. -/
noncomputable def preCtx (P : Ident → Option Proc) : SemCtx where
  loop := .lfp
  call _ f args φ := match P f with | some p => fun σ => p.pre (σ.pass p.ins (evalArgs σ args)) | none => φ

open Classical in
/-- The expectation before a statement that is to be told. -/
noncomputable def told (C : SemCtx) : Stmt → Exp → Exp
  | .seq a b, φ => told C a (told C b φ)
  | .demonic a b, φ => fun σ => min (told C a φ σ) (told C b φ σ)
  | .angelic a b, φ => fun σ => max (told C a φ σ) (told C b φ σ)
  | .additive a b, φ => fun σ => told C a φ σ + told C b φ σ
  | .ite c a b, φ => fun σ => if c.tv σ then told C a φ σ else told C b φ σ
  | .annot (.invariant I) (.while _ _), _ => I.ev
  | .annot (.unroll k t) (.while c s), φ => (fun ψ σ => if c.tv σ then told C s ψ σ else φ σ)^[k] t.ev
  | .annot _ s, φ => told C s φ
  | S, φ => vcSem C S φ

open Classical in
/-- The expectation at a place of a statement that is to be told. The body of an unrolled loop is explained for its first iteration. -/
noncomputable def toldAt (C : SemCtx) : Stmt → Exp → Place → Exp
  | S, φ, [] => told C S φ
  | .annot (.invariant I) (.while _ s), _, .fst :: p => toldAt C s I.ev p
  | .annot (.unroll k t) (.while c s), φ, .fst :: p => toldAt C s ((fun ψ σ => if c.tv σ then told C s ψ σ else φ σ)^[k - 1] t.ev) p
  | .annot _ s, φ, p => toldAt C s φ p
  | _, φ, [.fin] => φ
  | .seq a b, φ, .fst :: p => toldAt C a (told C b φ) p
  | .seq _ b, φ, .snd :: p => toldAt C b φ p
  | .demonic a _, φ, .fst :: p | .angelic a _, φ, .fst :: p | .additive a _, φ, .fst :: p | .ite _ a _, φ, .fst :: p => toldAt C a φ p
  | .demonic _ b, φ, .snd :: p | .angelic _ b, φ, .snd :: p | .additive _ b, φ, .snd :: p | .ite _ _ b, φ, .snd :: p => toldAt C b φ p
  | _, φ, _ => φ

end Explain
end Caesar
