import Verif.Props.C66
import Verif.Procs.RecSound

/-!
# C84: explanations of procedures

Specification: `preCtx`, `told`, `toldAt`, `places` in `Verif/Vc/ExplainSpec.lean`.
-/

open scoped ENNReal NNReal

namespace Caesar
open Explain

/-- The statement can be explained if the procedures are `P`: loops have an invariant or are unrolled, unrolled loops contain neither loops nor calls, loops
contain no negations, distributions are ones, and in calls of declared procedures no argument mentions a parameter that comes after its own one. -/
def Explainable (P : ProcTable) (D : List Ident) : Stmt → Prop
  | .sample b x d => ∃ q e, vcgen (.sample b x d) q = .ok e
  | .call _ _ f args => ∃ q, P f = some q ∧ PreTame D q ∧ SeqOkOn (fun _ => True) (zipArgs q.ins args)
  | .seq a b | .demonic a b | .angelic a b | .additive a b | .ite _ a b => Explainable P D a ∧ Explainable P D b
  | .annot (.slicing _) s => Explainable P D s
  | .annot (.invariant _) (.while _ s) => s.NoNeg ∧ Explainable P D s
  | .annot (.unroll _ _) (.while _ s) => s.NoNeg ∧ (∃ q e, vcgen s q = .ok e) ∧ Explainable P D s
  | .annot _ _ => False
  | .while _ _ => False
  | _ => True

section
variable [Doms] [Interp]
set_option linter.unusedSectionVars false

theorem foldSpec_ev (d : Dir) (es : List (Expr .eureal)) : (foldSpec d es).ev = combine d es := by
  funext σ
  cases d with
  | down =>
    have key : ∀ (es : List (Expr .eureal)) (a : Expr .eureal), (es.foldl (fun acc e => .bin (.inf rfl) acc e) a).ev σ = min (a.ev σ) (⨅ e ∈ es, e.ev σ) := by
      intro es
      induction es with
      | nil => intro a; simp
      | cons e es ih =>
        intro a
        rw [List.foldl_cons, ih, Expr.ev_inf, min_assoc]
        simp only [List.mem_cons, iInf_or, iInf_inf_eq, iInf_iInf_eq_left]
    cases es with
    | nil => simp only [combine, List.not_mem_nil, iInf_false, iInf_top]; rfl
    | cons e es =>
      refine (key es e).trans ?_
      simp only [combine, List.mem_cons, iInf_or, iInf_inf_eq, iInf_iInf_eq_left]
  | up =>
    have key : ∀ (es : List (Expr .eureal)) (a : Expr .eureal), (es.foldl (fun acc e => .bin (.sup rfl) acc e) a).ev σ = max (a.ev σ) (⨆ e ∈ es, e.ev σ) := by
      intro es
      induction es with
      | nil => intro a; simp
      | cons e es ih =>
        intro a
        rw [List.foldl_cons, ih, Expr.ev_sup, max_assoc]
        simp only [List.mem_cons, iSup_or, iSup_sup_eq, iSup_iSup_eq_left]
    cases es with
    | nil =>
      simp only [combine, List.not_mem_nil, iSup_false, iSup_bot]
      exact extremeLit_down σ
    | cons e es =>
      refine (key es e).trans ?_
      simp only [combine, List.mem_cons, iSup_or, iSup_sup_eq, iSup_iSup_eq_left]

theorem explainProcCall_ev {q : Proc} {args : List ((t : Ty) × Expr t)} (h : SeqOkOn (fun _ => True) (zipArgs q.ins args)) :
    (explainProcCall q args).ev = fun σ => q.pre (σ.pass q.ins (evalArgs σ args)) := by
  funext σ
  unfold explainProcCall
  rw [substPairs_pass _ _ _ _ (h.anti fun _ _ => trivial), foldSpec_ev]
  rfl

theorem Explainable.canX {P : ProcTable} {D : List Ident} : {S : Stmt} → Explainable P D S → CanX (preCtx P) P D S
  | .call _ l f args, ⟨q, h1, h2, h3⟩ => ⟨q, h1, h2, fun φ => by rw [explainProcCall_ev h3]; simp only [preCtx, h1]⟩
  | .seq a b, h | .demonic a b, h | .angelic a b, h | .additive a b, h | .ite _ a b, h => ⟨h.1.canX, h.2.canX⟩
  | .annot (.slicing _) s, h => Explainable.canX (S := s) h
  | .annot (.invariant _) (.while _ s), h => ⟨h.1, h.2.canX⟩
  | .annot (.unroll _ _) (.while _ s), h => ⟨h.1, h.2.1, h.2.2.canX⟩
  | .sample .., h => h
  | .skip, _ | .varDecl .., _ | .varInit .., _ | .assign .., _ | .havoc .., _ | .assert .., _ | .assume .., _ | .compare .., _ | .negate .., _ | .validate .., _
  | .tick .., _ | .weigh .., _ | .label .., _ => trivial

/-- For procedures that can be explained, in the safe fragment of constant folding: there is an explanation, what is shown at a place is what is to be told
there, and something is shown at the end and at every place, also in the bodies of loops. What is missing are calls with arguments that mention later parameters and
calls in unrolled loops (where the property fails, see `C84_not_full` and `C84_not_total`), negations and the fragment of `C66_partial`. -/
theorem C84_partial {P : ProcTable} {o : Oracle} (ho : o.Sound) (span : Nat) {q : Proc} {B : Stmt} (hB : q.body = some B) {c : TyCtx} (hx : Explainable P c.decls B)
    (hgu : B.Guarded) (hg : B.GoodDists) (hn : B.NoNeg) (ht : B.Tame c.decls) (hp : ∀ e ∈ q.ensures, e.Tame c.decls) :
    ∃ e shown, explainDecl P o span q c = .ok (some (e, shown)) ∧ e.ev = told (preCtx P) B q.post ∧ (∀ x ∈ shown, x.2.ev = toldAt (preCtx P) B q.post x.1) ∧
      (∃ e, ([.fin], e) ∈ shown) ∧ ∀ p ∈ places B, ∃ e, (p, e) ∈ shown := by
  have hpost : (foldSpec q.dir q.ensures).ev = q.post := foldSpec_ev _ _
  have h' : Out False (do addExpr [.fin] (foldSpec q.dir q.ensures); vcgenX P o span B [] (foldSpec q.dir q.ensures) : M (Expr .eureal)) ⟨q.dir, (c, 0), []⟩
      fun e s => e.ev = told (preCtx P) B q.post ∧ (∀ x ∈ s.shown, x.2.ev = toldAt (preCtx P) B q.post x.1) ∧ (∃ e, ([.fin], e) ∈ s.shown) ∧
        ∀ p ∈ places B, ∃ e, (p, e) ∈ s.shown := by
    refine .bind (.show' _ _ (Q := fun _ s => s = ⟨q.dir, (c, 0), [([.fin], foldSpec q.dir q.ensures)]⟩) rfl) fun _ s hs => ?_
    subst hs
    refine (vcgenX_out (C := preCtx P) ho span [] _ _ hx.canX hgu hg (.inl hn) ht (foldSpec_tame _ hp)).imp fun e s r =>
      ⟨hpost ▸ r.val, fun x hx => ?_, ⟨_, r.keep (by simp; rfl)⟩, r.all⟩
    rcases r.right x hx with hx | ⟨q', hq, he⟩
    · rw [List.mem_singleton.1 hx, toldAt_fin, hpost]
    · rw [he, hq, hpost]; rfl
  unfold explainDecl explainVc
  rw [hB]
  rcases h' with ⟨e, s, h1, h2⟩ | ⟨h0, -⟩
  · dsimp only
    rw [h1]
    exact ⟨e, s.shown, rfl, h2⟩
  · exact h0.elim

/-! ## What is verified is at most what is told -/

/-- Statements with a condition contain no annotations to encode. -/
theorem encodeLoops_core (d : Dir) {S : Stmt} : (∃ q e, vcgen S q = .ok e) → encodeLoops d S = .ok S := by
  have two : ∀ {a b : Stmt} {q e : Expr .eureal} {f : Expr .eureal → Expr .eureal → Expr .eureal},
      (do let p1 ← vcgen a q; let p2 ← vcgen b q; .ok (f p1 p2) : Except VcError (Expr .eureal)) = .ok e →
      (∃ q e, vcgen a q = .ok e) ∧ ∃ q e, vcgen b q = .ok e := by
    intro a b q e f h
    obtain ⟨p1, h1, h⟩ := bind_ok h
    obtain ⟨p2, h2, h⟩ := bind_ok h
    exact ⟨⟨_, _, h1⟩, _, _, h2⟩
  induction S with
  | seq a b iha ihb =>
    rintro ⟨q, e, h⟩
    obtain ⟨q1, h1, h2⟩ := bind_ok h
    unfold encodeLoops
    rw [iha ⟨_, _, h2⟩, ihb ⟨_, _, h1⟩]; rfl
  | demonic a b iha ihb | angelic a b iha ihb | additive a b iha ihb | ite c a b iha ihb =>
    rintro ⟨q, e, h⟩
    unfold encodeLoops
    rw [iha (two h).1, ihb (two h).2]; rfl
  | annot an s ih =>
    rintro ⟨q, e, h⟩
    cases an with
    | slicing k => unfold encodeLoops; rw [ih ⟨q, e, h⟩]; rfl
    | _ => cases h
  | «while» => rintro ⟨q, e, h⟩; cases h
  | _ => exact fun _ => rfl

/-- Statements with a condition contain no calls. -/
theorem specCall_core (P : ProcTable) (d : Dir) {S : Stmt} : (∃ q e, vcgen S q = .ok e) → ∀ decl, specCall P d S decl = some (S, decl) := by
  have two : ∀ {a b : Stmt} {q e : Expr .eureal} {f : Expr .eureal → Expr .eureal → Expr .eureal},
      (do let p1 ← vcgen a q; let p2 ← vcgen b q; .ok (f p1 p2) : Except VcError (Expr .eureal)) = .ok e →
      (∃ q e, vcgen a q = .ok e) ∧ ∃ q e, vcgen b q = .ok e := by
    intro a b q e f h
    obtain ⟨p1, h1, h⟩ := bind_ok h
    obtain ⟨p2, h2, h⟩ := bind_ok h
    exact ⟨⟨_, _, h1⟩, _, _, h2⟩
  induction S with
  | seq a b iha ihb =>
    rintro ⟨q, e, h⟩ decl
    obtain ⟨q1, h1, h2⟩ := bind_ok h
    simp [specCall, iha ⟨_, _, h2⟩, ihb ⟨_, _, h1⟩]
  | demonic a b iha ihb | angelic a b iha ihb | additive a b iha ihb | ite c a b iha ihb =>
    rintro ⟨q, e, h⟩ decl
    simp [specCall, iha (two h).1, ihb (two h).2]
  | annot an s ih =>
    rintro ⟨q, e, h⟩ decl
    cases an with
    | slicing k => simp [specCall, ih ⟨q, e, h⟩]
    | _ => cases h
  | «while» => rintro ⟨q, e, h⟩; cases h
  | call => rintro ⟨q, e, h⟩; cases h
  | _ => exact fun _ _ => rfl

theorem specCall_pair {P : ProcTable} {d : Dir} {a b : Stmt} {f : Stmt → Stmt → Stmt} {decl decl' : List Var} {S : Stmt}
    (h : (do let (a', x) ← specCall P d a decl; let (b', x) ← specCall P d b x; return (f a' b', x) : Option (Stmt × List Var)) = some (S, decl')) :
    ∃ a' b' x y, specCall P d a decl = some (a', x) ∧ specCall P d b x = some (b', y) ∧ S = f a' b' := by
  cases h1 : specCall P d a decl with
  | none => rw [h1] at h; exact nomatch h
  | some r1 =>
    rw [h1] at h
    have h : ((specCall P d b r1.2).bind _ : Option _) = _ := h
    cases h2 : specCall P d b r1.2 with
    | none => rw [h2] at h; exact nomatch h
    | some r2 =>
      rw [h2] at h
      obtain ⟨rfl, -⟩ := Prod.mk.inj (Option.some.inj h)
      exact ⟨r1.1, r2.1, r1.2, r2.2, rfl, h2, rfl⟩

/-- What is verified of a call is at most the precondition. -/
theorem encodeAssign_le_pre (C : SemCtx) {d : Dir} {p : Proc} (hd : p.dir = d) {args : List ((t : Ty) × Expr t)}
    (hs : SeqOkOn (fun _ => True) (zipArgs p.ins args)) (decl l : List Var) (φ : Exp) :
    d.Le (vcSem C (Stmt.block (encodeAssign decl p l args).1) φ) fun σ => p.pre (σ.pass p.ins (evalArgs σ args)) := by
  subst hd
  rw [encodeAssign_sem]
  have he : ∀ σ e, (substPairs e (zipArgs p.ins args)).ev σ = e.ev (σ.pass p.ins (evalArgs σ args)) :=
    fun σ e => substPairs_pass e _ _ _ (hs.anti fun _ _ => trivial)
  unfold Proc.pre combine
  cases p.dir with
  | down =>
    intro σ
    rw [vcSem_wrapAsserts_down]
    refine (min_le_left _ _).trans (le_of_eq ?_)
    simp only [he]
  | up =>
    intro σ
    rw [vcSem_wrapAsserts_up]
    refine le_trans (le_of_eq ?_) (le_max_left _ _)
    simp only [he]

/-- The encoding of loops and calls is on the safe side of what is told. -/
theorem told_bound (C : SemCtx) (hC : ∀ l f a, Monotone (C.call l f a)) {P : ProcTable} {d : Dir} (hdir : ∀ f p, P f = some p → p.dir = d) {D : List Ident} {S : Stmt} :
    ∀ {S1 : Stmt} {decl : List Var} {S2 : Stmt} {decl' : List Var}, encodeLoops d S = .ok S1 → specCall P d S1 decl = some (S2, decl') → S.NoNeg →
    Explainable P D S → ∀ φ, d.Le (vcSem C S2 φ) (told (preCtx P) S φ) := by
  classical
  have atom : ∀ {S : Stmt}, (∃ q e, vcgen S q = .ok e) → ∀ {S1 : Stmt} {decl : List Var} {S2 : Stmt} {decl' : List Var}, encodeLoops d S = .ok S1 →
      specCall P d S1 decl = some (S2, decl') → (∀ φ, vcSem C S φ = vcSem (preCtx P) S φ) → ∀ φ, d.Le (vcSem C S2 φ) (told (preCtx P) S φ) := by
    intro S hv S1 decl S2 decl' h1 h2 hs φ
    cases (encodeLoops_core d hv).symm.trans h1
    cases (specCall_core P d hv decl).symm.trans h2
    rw [told_core hv, hs]
    exact .refl d _
  induction S using Stmt.loopRec with
  | seq a b iha ihb =>
    intro S1 decl S2 decl' h1 h2 hn hx φ
    obtain ⟨a1, b1, ha, hb, rfl⟩ := encode_seq_ok h1
    obtain ⟨a2, b2, x, y, ha2, hb2, rfl⟩ := specCall_pair h2
    refine .trans ?_ (iha ha ha2 hn.1 hx.1 (told (preCtx P) b φ))
    exact .apply (vcSem_mono C hC (specCall_noNeg (encodeLoops_noNeg ha hn.1) ha2)) (ihb hb hb2 hn.2 hx.2 φ)
  | demonic a b iha ihb =>
    intro S1 decl S2 decl' h1 h2 hn hx φ
    obtain ⟨a1, b1, ha, hb, rfl⟩ := encode_seq_ok h1
    obtain ⟨a2, b2, x, y, ha2, hb2, rfl⟩ := specCall_pair h2
    exact .pointwise (f := fun _ x y => min x y) (fun _ _ _ _ _ => min_le_min) (iha ha ha2 hn.1 hx.1 φ) (ihb hb hb2 hn.2 hx.2 φ)
  | angelic a b iha ihb =>
    intro S1 decl S2 decl' h1 h2 hn hx φ
    obtain ⟨a1, b1, ha, hb, rfl⟩ := encode_seq_ok h1
    obtain ⟨a2, b2, x, y, ha2, hb2, rfl⟩ := specCall_pair h2
    exact .pointwise (f := fun _ x y => max x y) (fun _ _ _ _ _ => max_le_max) (iha ha ha2 hn.1 hx.1 φ) (ihb hb hb2 hn.2 hx.2 φ)
  | additive a b iha ihb =>
    intro S1 decl S2 decl' h1 h2 hn hx φ
    obtain ⟨a1, b1, ha, hb, rfl⟩ := encode_seq_ok h1
    obtain ⟨a2, b2, x, y, ha2, hb2, rfl⟩ := specCall_pair h2
    exact .pointwise (f := fun _ x y => x + y) (fun _ _ _ _ _ => add_le_add) (iha ha ha2 hn.1 hx.1 φ) (ihb hb hb2 hn.2 hx.2 φ)
  | ite c a b iha ihb =>
    intro S1 decl S2 decl' h1 h2 hn hx φ
    obtain ⟨a1, b1, ha, hb, rfl⟩ := encode_seq_ok h1
    obtain ⟨a2, b2, x, y, ha2, hb2, rfl⟩ := specCall_pair h2
    exact .pointwise (f := fun σ x y => if c.tv σ then x else y) (fun σ x x' y y' h h' => by split <;> assumption) (iha ha ha2 hn.1 hx.1 φ) (ihb hb hb2 hn.2 hx.2 φ)
  | call b l f args =>
    intro S1 decl S2 decl' h1 h2 hn hx φ
    obtain ⟨p, hp, -, hs⟩ := hx
    cases h1
    have hS : vcSem C S2 φ = vcSem C (Stmt.block (encodeAssign decl p l args).1) φ := by
      unfold specCall at h2
      simp only [hp] at h2
      split at h2
      · obtain ⟨rfl, -⟩ := Prod.mk.inj (Option.some.inj h2)
        exact vcSem_varDecls C l _ φ
      · split at h2
        · exact nomatch h2
        · obtain ⟨rfl, -⟩ := Prod.mk.inj (Option.some.inj h2)
          rfl
    rw [hS]
    have ht : told (preCtx P) (.call b l f args) φ = fun σ => p.pre (σ.pass p.ins (evalArgs σ args)) := by
      show (preCtx P).call l f args φ = _
      simp only [preCtx, hp]
    rw [ht]
    exact encodeAssign_le_pre C (hdir f p hp) hs decl l φ
  | annot an s ih ihb =>
    intro S1 decl S2 decl' h1 h2 hn hx φ
    cases an with
    | slicing k =>
      obtain ⟨s1, hs1, h1⟩ := bind_ok h1
      cases h1
      cases h3 : specCall P d s1 decl with
      | none => simp [specCall, h3] at h2
      | some r =>
        simp only [specCall, h3] at h2
        obtain ⟨rfl, -⟩ := Prod.mk.inj (Option.some.inj h2)
        exact ih hs1 h3 hn hx φ
    | invariant I =>
      cases s with
      | «while» c body =>
        obtain ⟨s1, hs1, h1⟩ := bind_ok h1
        obtain ⟨b1, hb1, hs1⟩ := bind_ok hs1
        cases hs1
        cases h1
        obtain ⟨a2, b2, x, y, ha2, -, rfl⟩ := specCall_pair h2
        cases ha2
        cases d
        · exact fun σ => min_le_left _ _
        · exact fun σ => le_max_left _ _
      | _ => exact hx.elim
    | unroll k t =>
      cases s with
      | «while» c body =>
        obtain ⟨s1, hs1, h1⟩ := bind_ok h1
        obtain ⟨b1, hb1, hs1⟩ := bind_ok hs1
        cases hs1
        cases h1
        cases (encodeLoops_core d hx.2.1).symm.trans hb1
        obtain ⟨q, e, hv⟩ := id hx.2.1
        obtain ⟨e', he'⟩ := encodeUnroll_vcgen (c := c) (vcgen_any hv) t d k q
        cases (specCall_core P d ⟨_, _, he'⟩ decl).symm.trans h2
        rw [encodeUnroll_sem, heyConst_sem]
        show d.Le _ ((fun ψ σ => if c.tv σ then told (preCtx P) body ψ σ else φ σ)^[k] t.ev)
        have hit : ∀ k, d.Le ((loopFun C c body φ)^[k] t.ev) ((fun ψ σ => if c.tv σ then told (preCtx P) body ψ σ else φ σ)^[k] t.ev) := by
          intro k
          induction k with
          | zero => exact .refl d _
          | succ k ihk =>
            rw [Function.iterate_succ_apply', Function.iterate_succ_apply']
            refine .trans (.apply (loopFun_mono (vcSem_mono C hC hx.1) c φ) ihk) ?_
            exact .pointwise (f := fun σ x y => if c.tv σ then x else y) (fun σ x x' y y' h h' => by split <;> assumption)
              (ihb c body rfl (encodeLoops_core d hx.2.1) (specCall_core P d hx.2.1 decl) hx.1 hx.2.2 _) (.refl d φ)
        exact hit k
      | _ => exact hx.elim
    | _ => exact hx.elim
  | «while» => intro _ _ _ _ _ _ _ hx; exact hx.elim
  | negate => intro _ _ _ _ _ _ hn; exact hn.elim
  | sample b x d' => intro S1 decl S2 decl' h1 h2 hn hx; exact atom hx h1 h2 fun _ => rfl
  | havoc d' xs => intro S1 decl S2 decl' h1 h2 _ _; exact atom (by cases d' <;> exact ⟨Expr.inftyLit, _, rfl⟩) h1 h2 fun φ => by cases d' <;> rfl
  | assert d' e => intro S1 decl S2 decl' h1 h2 _ _; exact atom (by cases d' <;> exact ⟨Expr.inftyLit, _, rfl⟩) h1 h2 fun φ => by cases d' <;> rfl
  | assume d' e => intro S1 decl S2 decl' h1 h2 _ _; exact atom (by cases d' <;> exact ⟨Expr.inftyLit, _, rfl⟩) h1 h2 fun φ => by cases d' <;> rfl
  | compare d' e => intro S1 decl S2 decl' h1 h2 _ _; exact atom (by cases d' <;> exact ⟨Expr.inftyLit, _, rfl⟩) h1 h2 fun φ => by cases d' <;> rfl
  | validate d' => intro S1 decl S2 decl' h1 h2 _ _; exact atom (by cases d' <;> exact ⟨Expr.inftyLit, _, rfl⟩) h1 h2 fun φ => by cases d' <;> rfl
  | _ => intro S1 decl S2 decl' h1 h2 _ _; exact atom ⟨Expr.inftyLit, _, rfl⟩ h1 h2 fun _ => rfl

/-- If a procedure verifies, then its precondition is on the safe side of what is shown at its start. The converse fails (`C84_not_enough`). -/
theorem C84_verified_partial (C : SemCtx) (hC : ∀ l f a, Monotone (C.call l f a)) {P : ProcTable} {o : Oracle} (ho : o.Sound) (span : Nat) {q : Proc}
    (hdir : ∀ f p, P f = some p → p.dir = q.dir) {B S1 S2 : Stmt} {decl decl' : List Var} (hB : q.body = some B) (h1 : encodeLoops q.dir B = .ok S1)
    (h2 : specCall P q.dir S1 decl = some (S2, decl')) (hv : q.Meets (vcSem C S2)) {c : TyCtx} (hx : Explainable P c.decls B)
    (hgu : B.Guarded) (hg : B.GoodDists) (hn : B.NoNeg) (ht : B.Tame c.decls) (hp : ∀ e ∈ q.ensures, e.Tame c.decls) :
    ∃ e shown, explainDecl P o span q c = .ok (some (e, shown)) ∧ ∀ σ, match q.dir with | .down => q.pre σ ≤ e.ev σ | .up => e.ev σ ≤ q.pre σ := by
  obtain ⟨e, shown, h, he, -⟩ := C84_partial ho span hB hx hgu hg hn ht hp
  refine ⟨e, shown, h, fun σ => ?_⟩
  rw [he]
  have hb := told_bound C hC hdir h1 h2 hn hx q.post
  unfold Proc.Meets at hv
  revert hv hb
  cases q.dir with
  | down => exact fun hv hb => (hv σ).trans (hb σ)
  | up => exact fun hv hb => (hb σ).trans (hv σ)

end

/-! ## Where explanations fail -/

/-- Whenever a procedure can be encoded, it can be explained, and what is shown is what is to be told. -/
def C84_full : Prop := ∀ (_ : Doms) (_ : Interp) (P : ProcTable) (o : Oracle) (_ : o.Sound) (span : Nat) (q : Proc) (B S1 S2 : Stmt) (decl : List Var) (c : TyCtx),
  q.body = some B → encodeLoops q.dir B = .ok S1 → specCall P q.dir S1 [] = some (S2, decl) →
  ∃ e shown, explainDecl P o span q c = .ok (some (e, shown)) ∧ ∀ x ∈ shown, x.2.ev = toldAt (preCtx P) B q.post x.1

section Refutations

abbrev C84_a : Var := ⟨⟨"a", 0⟩, .eureal⟩
abbrev C84_b : Var := ⟨⟨"b", 0⟩, .eureal⟩

/-- `proc f(a: EUReal, b: EUReal) -> () pre a { f(b, a) }` -/
def C84_swap : Proc := ⟨⟨"f", 0⟩, .down, [⟨C84_a, 1⟩, ⟨C84_b, 2⟩], [], [.requires (varExpr C84_a)],
  some (.call false [] ⟨"f", 0⟩ [⟨.eureal, varExpr C84_b⟩, ⟨.eureal, varExpr C84_a⟩])⟩

def C84_procs : ProcTable := fun f => if f = ⟨"f", 0⟩ then some C84_swap else none

def C84_ctx : TyCtx := ⟨[C84_a.id, C84_b.id], fun _ => none⟩

theorem C84_swap_x : ∃ shown, explainDecl C84_procs C66_oracle 0 C84_swap C84_ctx = .ok (some (.var C84_a.id, shown)) ∧ ([], .var C84_a.id) ∈ shown :=
  ⟨_, rfl, by simp⟩

/-- The call `f(b, a)` is explained by `a` instead of `b`, since the arguments are substituted one after the other. -/
theorem C84_not_full : ¬ C84_full := by
  classical
  intro h
  let _ := unitDoms
  let _ := unitInterp
  obtain ⟨shown, h1, h2⟩ := C84_swap_x
  obtain ⟨e', shown', h3, h4⟩ := h unitDoms unitInterp C84_procs C66_oracle C66_oracle_sound 0 C84_swap _ _ _ _ C84_ctx rfl rfl rfl
  cases h1.symm.trans h3
  have h5 := congrFun (h4 _ h2) (zeroEnv.upd C84_a (1 : ℝ≥0∞))
  have h6 : (Expr.var (t := .eureal) C84_a.id).ev (zeroEnv.upd C84_a (1 : ℝ≥0∞)) = 1 := Env.upd_same zeroEnv C84_a (1 : ℝ≥0∞)
  have h7 : toldAt (preCtx C84_procs) (.call false [] ⟨"f", 0⟩ [⟨.eureal, varExpr C84_b⟩, ⟨.eureal, varExpr C84_a⟩]) C84_swap.post [] (zeroEnv.upd C84_a (1 : ℝ≥0∞)) =
      C84_swap.pre ((zeroEnv.upd C84_a (1 : ℝ≥0∞)).pass C84_swap.ins (evalArgs (zeroEnv.upd C84_a (1 : ℝ≥0∞)) [⟨.eureal, varExpr C84_b⟩, ⟨.eureal, varExpr C84_a⟩])) := rfl
  have h8 : ∀ τ : Env, C84_swap.pre τ = τ C84_a := by
    intro τ
    show (⨅ e ∈ [varExpr C84_a], e.ev τ) = _
    simp only [List.mem_singleton, iInf_iInf_eq_left]
    rfl
  have h9 : ((zeroEnv.upd C84_a (1 : ℝ≥0∞)).pass C84_swap.ins (evalArgs (zeroEnv.upd C84_a (1 : ℝ≥0∞)) [⟨.eureal, varExpr C84_b⟩, ⟨.eureal, varExpr C84_a⟩])) C84_a =
      (zeroEnv.upd C84_a (1 : ℝ≥0∞)) C84_b := by
    show (if h : Ty.eureal = C84_a.ty then _ else _ : Env) C84_a = _
    rw [dif_pos rfl, Env.upd_same]
    rfl
  rw [h6] at h5
  have h10 := h5.trans (h7.trans ((h8 _).trans (h9.trans (Env.upd_ne zeroEnv (by decide : C84_b ≠ C84_a) (1 : ℝ≥0∞)))))
  exact one_ne_zero (α := ℝ≥0∞) h10

/-- `proc g() -> () { @unroll(1, ∞) while true { g() } }` -/
def C84_rec : Proc := ⟨⟨"g", 0⟩, .down, [], [], [], some (.annot (.unroll 1 Expr.inftyLit) (.while (Expr.boolLit true) (.call false [] ⟨"g", 0⟩ [])))⟩

/-- A call in an unrolled loop is a panic, although the procedure can be encoded. -/
theorem C84_not_total (o : Oracle) (span : Nat) (c : TyCtx) : (∃ S1 S2 decl, encodeLoops C84_rec.dir (.annot (.unroll 1 Expr.inftyLit)
      (.while (Expr.boolLit true) (.call false [] ⟨"g", 0⟩ []))) = .ok S1 ∧ specCall (fun _ => some C84_rec) C84_rec.dir S1 [] = some (S2, decl)) ∧
    explainDecl (fun _ => some C84_rec) o span C84_rec c = .error (.vc .callPanic) :=
  ⟨⟨_, _, _, rfl, rfl⟩, rfl⟩

/-- A loop with an invariant is explained by the invariant also if there is an error in its body, such as a loop without annotation there: whatever the loop, the
explanation is the invariant or there is a panic. -/
theorem C84_loop_error (P : ProcTable) (o : Oracle) (span : Nat) (q : Proc) (I : Expr .eureal) (g : Expr .bool) (body : Stmt) (c : TyCtx)
    (hB : q.body = some (.annot (.invariant I) (.while g body))) :
    (∃ shown, explainDecl P o span q c = .ok (some (I, shown)) ∧ ([], I) ∈ shown) ∨ explainDecl P o span q c = .error .panic ∨
      explainDecl P o span q c = .error (.vc .callPanic) ∨ explainDecl P o span q c = .error (.vc .zeroOdds) := by
  unfold explainDecl
  rw [hB]
  unfold explainVc vcgenX
  simp only [bind, StateT.bind, addExpr, Except.bind, List.nil_append, attempt]
  split
  · next e s hs =>
    split at hs
    · cases hs
    · next r hr =>
      simp only [finish, bind, StateT.bind, addExpr, Except.bind, pure, StateT.pure, Except.pure, Except.ok.injEq, Prod.mk.injEq] at hs
      obtain ⟨rfl, rfl⟩ := hs
      exact .inl ⟨_, rfl, by simp⟩
  · next e hs =>
    split at hs
    · next e' hr =>
      cases hs
      split at hr
      · cases hr
      · cases hr; exact .inr (.inl rfl)
      · cases hr; exact .inr (.inr (.inl rfl))
      · cases hr; exact .inr (.inr (.inr rfl))
      · cases hr
    · cases hs

/-- `proc h() -> () pre ∞ { @invariant(∞) while true { assert 0 } }` -/
def C84_weak : Proc := ⟨⟨"h", 0⟩, .down, [], [], [.requires Expr.inftyLit],
  some (.annot (.invariant Expr.inftyLit) (.while (Expr.boolLit true) (.assert .down (.lit (.efrac 0)))))⟩

/-- What is shown at the start of a procedure can be above its precondition although the procedure does not verify. -/
theorem C84_not_enough [Doms] [Interp] [Nonempty Env] (C : SemCtx) (P : ProcTable) (o : Oracle) (span : Nat) (c : TyCtx) : ∃ B S1 S2, C84_weak.body = some B ∧
    encodeLoops .down B = .ok S1 ∧ specCall P .down S1 [] = some (S2, []) ∧ ¬ C84_weak.Meets (vcSem C S2) ∧
    ∃ e shown, explainDecl P o span C84_weak c = .ok (some (e, shown)) ∧ ∀ σ, C84_weak.pre σ ≤ e.ev σ := by
  classical
  refine ⟨_, _, _, rfl, rfl, rfl, ?_, Expr.inftyLit, _, rfl, fun σ => le_top⟩
  intro h
  obtain ⟨σ⟩ := ‹Nonempty Env›
  have h1 : C84_weak.pre σ ≤ vcSem C (transformKInduction .down 1 Expr.inftyLit (Expr.boolLit true) (.assert .down (.lit (.efrac 0)))) C84_weak.post σ := h σ
  have h2 : C84_weak.pre σ = ⊤ := by
    show (⨅ e ∈ [Expr.inftyLit], e.ev σ) = _
    simp only [List.mem_singleton, iInf_iInf_eq_left]
    rfl
  rw [h2, transformKInduction_sem, if_neg] at h1
  · exact absurd (top_le_iff.1 h1) ENNReal.zero_ne_top
  · intro hi
    have h3 := hi σ (fun _ _ => rfl)
    have h4 : (Expr.lit (.efrac 0)).ev σ = 0 := by simp [Expr.ev, Expr.eval, Lit.den]
    have h5 : (⊤ : ℝ≥0∞) ≤ min ((Expr.lit (.efrac 0)).ev σ) _ := h3.trans (le_of_eq (if_pos rfl))
    rw [h4] at h5
    exact absurd (top_le_iff.1 (h5.trans (min_le_left _ _))) ENNReal.zero_ne_top

/-- A loop without annotation in the body of a loop with an invariant. -/
example (P : ProcTable) (o : Oracle) (span : Nat) (c : TyCtx) : ∃ shown, explainDecl P o span ⟨⟨"h", 0⟩, .down, [], [], [],
    some (.annot (.invariant Expr.inftyLit) (.while (Expr.boolLit true) (.while (Expr.boolLit true) .skip)))⟩ c = .ok (some (Expr.inftyLit, shown)) :=
  ⟨_, rfl⟩

/-- Non-vacuity: a procedure that calls itself, samples, and has an unrolled loop in a loop with an invariant. -/
def C84_good : Proc := ⟨⟨"f", 0⟩, .down, [⟨C84_a, 1⟩, ⟨C84_b, 2⟩], [], [.requires (varExpr C84_a), .requires (varExpr C84_b), .ensures (varExpr C84_b)],
  some (.seq (.sample true ⟨"c", 0⟩ (.flip (.lit (.ufrac (1 / 2)))))
    (.seq (.annot (.invariant (varExpr C84_b)) (.while (.var ⟨"c", 0⟩) (.seq (.annot (.unroll 2 Expr.inftyLit) (.while (.var ⟨"c", 0⟩) (.assign C84_a (varExpr C84_b))))
      (.call false [] ⟨"f", 0⟩ [⟨.eureal, varExpr C84_a⟩, ⟨.eureal, varExpr C84_a⟩]))))
    (.call false [] ⟨"f", 0⟩ [⟨.eureal, .lit (.efrac 1)⟩, ⟨.eureal, varExpr C84_a⟩])))⟩

def C84_goodProcs : ProcTable := fun f => if f = ⟨"f", 0⟩ then some C84_good else none

example : ∃ B, C84_good.body = some B ∧ Explainable C84_goodProcs [C84_a.id, C84_b.id, ⟨"c", 0⟩] B ∧ B.Guarded ∧ B.GoodDists ∧ B.NoNeg ∧
    B.Tame [C84_a.id, C84_b.id, ⟨"c", 0⟩] ∧ (∀ e ∈ C84_good.ensures, e.Tame [C84_a.id, C84_b.id, ⟨"c", 0⟩]) ∧ (places B).length = 8 ∧
    ∃ S1 S2 decl, encodeLoops C84_good.dir B = .ok S1 ∧ specCall C84_goodProcs C84_good.dir S1 [] = some (S2, decl) := by
  refine ⟨_, rfl, ?_, ?_, ?_, ?_, ?_, ?_, rfl, ⟨_, _, _, rfl, rfl⟩⟩
  · have hq : PreTame [C84_a.id, C84_b.id, ⟨"c", 0⟩] C84_good := by
      constructor
      · intro e he
        rcases List.mem_cons.1 he with rfl | he
        · simp [varExpr, Expr.Tame]
        · rw [List.mem_singleton.1 he]; simp [varExpr, Expr.Tame]
      · intro x hx
        rcases List.mem_cons.1 hx with rfl | hx
        · simp
        · rw [List.mem_singleton.1 hx]; simp
    refine ⟨⟨Expr.inftyLit, _, rfl⟩, ⟨⟨trivial, trivial⟩, ⟨trivial, ⟨Expr.inftyLit, _, rfl⟩, trivial⟩, C84_good, rfl, hq, ?_⟩, C84_good, rfl, hq, ?_⟩
    · refine ⟨fun _ q hq hf => ?_, fun _ q hq => absurd hq List.not_mem_nil, trivial⟩
      rw [List.mem_singleton.1 hq] at hf
      have hf : (varExpr C84_a).Free C84_b := hf
      have : C84_b = C84_a := hf
      exact absurd this (by decide)
    · refine ⟨fun _ q hq hf => hf.elim, fun _ q hq => absurd hq List.not_mem_nil, trivial⟩
  · simp [Stmt.Guarded]
  · simp [Stmt.GoodDists, DistCall.Good]
  · simp [Stmt.NoNeg]
  · simp [Stmt.Tame, Annot.Tame, DistCall.Tame, varExpr, Expr.inftyLit, Expr.Tame]
  · intro e he
    rw [List.mem_singleton.1 he]
    simp [varExpr, Expr.Tame]

end Refutations
end Caesar
