import Verif.Vc.ExplainSpec
import Verif.Opt.FoldTame
import Verif.Procs.CalcSound
import Verif.Props.C04
import Verif.Procs.SpecCallSound
import Verif.ProofRules.LoopsSem

/-!
# Explanations (proof infrastructure)
-/

namespace Caesar

/-- The expressions in the distribution are tame. -/
def DistCall.Tame (D : List Ident) : {t : Ty} → DistCall t → Prop
  | _, .flip p => p.Tame D
  | _, _ => True

/-- The expressions in an annotation that are explained are tame. -/
def Annot.Tame (D : List Ident) : Annot → Prop
  | .invariant I => I.Tame D
  | .unroll _ t => t.Tame D
  | _ => True

theorem Annot.Tame.mono {D D' : List Ident} (hD : D ⊆ D') {an : Annot} (h : an.Tame D) : an.Tame D' := by
  cases an with
  | invariant I => exact Expr.Tame.mono hD h
  | unroll k t => exact Expr.Tame.mono hD h
  | _ => trivial

/-- All expressions of the statement are tame and all its variables are in `D`. -/
def Stmt.Tame (D : List Ident) : Stmt → Prop
  | .varInit x e => x.id ∈ D ∧ e.Tame D
  | .assign x e => x.id ∈ D ∧ e.Tame D
  | .sample _ x d => x ∈ D ∧ d.Tame D
  | .havoc _ xs => ∀ x ∈ xs, x.id ∈ D
  | .assert _ e => e.Tame D
  | .assume _ e => e.Tame D
  | .compare _ e => e.Tame D
  | .tick e => e.Tame D
  | .weigh e => e.Tame D
  | .seq a b => a.Tame D ∧ b.Tame D
  | .demonic a b => a.Tame D ∧ b.Tame D
  | .angelic a b => a.Tame D ∧ b.Tame D
  | .additive a b => a.Tame D ∧ b.Tame D
  | .ite c a b => c.Tame D ∧ a.Tame D ∧ b.Tame D
  | .while c s => c.Tame D ∧ s.Tame D
  | .annot an s => an.Tame D ∧ s.Tame D
  | .call _ _ _ args => ∀ a ∈ args, a.2.Tame D
  | _ => True

theorem DistCall.Tame.mono {D D' : List Ident} (hD : D ⊆ D') {t : Ty} {d : DistCall t} (h : d.Tame D) : d.Tame D' := by
  cases d with
  | flip p => exact Expr.Tame.mono hD h
  | _ => trivial

theorem Stmt.Tame.mono {D D' : List Ident} (hD : D ⊆ D') {S : Stmt} (h : S.Tame D) : S.Tame D' := by
  induction S with
  | varInit x e => exact ⟨hD h.1, h.2.mono hD⟩
  | assign x e => exact ⟨hD h.1, h.2.mono hD⟩
  | sample b x d => exact ⟨hD h.1, h.2.mono hD⟩
  | havoc d xs => exact fun x hx => hD (h x hx)
  | assert d e => exact Expr.Tame.mono hD h
  | assume d e => exact Expr.Tame.mono hD h
  | compare d e => exact Expr.Tame.mono hD h
  | tick e => exact Expr.Tame.mono hD h
  | weigh e => exact Expr.Tame.mono hD h
  | seq a b iha ihb => exact ⟨iha h.1, ihb h.2⟩
  | demonic a b iha ihb => exact ⟨iha h.1, ihb h.2⟩
  | angelic a b iha ihb => exact ⟨iha h.1, ihb h.2⟩
  | additive a b iha ihb => exact ⟨iha h.1, ihb h.2⟩
  | ite c a b iha ihb => exact ⟨h.1.mono hD, iha h.2.1, ihb h.2.2⟩
  | «while» c s ih => exact ⟨h.1.mono hD, ih h.2⟩
  | annot an s ih => exact ⟨h.1.mono hD, ih h.2⟩
  | call b l f args => exact fun a ha => (h a ha).mono hD
  | _ => trivial

/-- Induction on statements with the induction hypothesis for the body of an annotated loop. -/
theorem Stmt.loopRec {motive : Stmt → Prop} (skip : motive .skip) (seq : ∀ a b, motive a → motive b → motive (.seq a b)) (varDecl : ∀ x, motive (.varDecl x))
    (varInit : ∀ x e, motive (.varInit x e)) (assign : ∀ x e, motive (.assign x e)) (sample : ∀ b x {t : Ty} (d : DistCall t), motive (.sample b x d))
    (call : ∀ b l f args, motive (.call b l f args)) (havoc : ∀ d xs, motive (.havoc d xs)) (assert : ∀ d e, motive (.assert d e))
    (assume : ∀ d e, motive (.assume d e)) (compare : ∀ d e, motive (.compare d e)) (negate : ∀ d, motive (.negate d)) (validate : ∀ d, motive (.validate d))
    (tick : ∀ e, motive (.tick e)) (weigh : ∀ e, motive (.weigh e)) (demonic : ∀ a b, motive a → motive b → motive (.demonic a b))
    (angelic : ∀ a b, motive a → motive b → motive (.angelic a b)) (additive : ∀ a b, motive a → motive b → motive (.additive a b))
    (ite : ∀ c a b, motive a → motive b → motive (.ite c a b)) («while» : ∀ c s, motive s → motive (.while c s))
    (annot : ∀ an s, motive s → (∀ c b, s = .while c b → motive b) → motive (.annot an s)) (label : ∀ l, motive (.label l)) (S : Stmt) : motive S := by
  suffices h : motive S ∧ ∀ c b, S = .while c b → motive b from h.1
  induction S with
  | skip => exact ⟨skip, nofun⟩
  | seq a b iha ihb => exact ⟨seq _ _ iha.1 ihb.1, nofun⟩
  | varDecl x => exact ⟨varDecl _, nofun⟩
  | varInit x e => exact ⟨varInit _ _, nofun⟩
  | assign x e => exact ⟨assign _ _, nofun⟩
  | sample b x d => exact ⟨sample _ _ _, nofun⟩
  | call b l f args => exact ⟨call _ _ _ _, nofun⟩
  | havoc d xs => exact ⟨havoc _ _, nofun⟩
  | assert d e => exact ⟨assert _ _, nofun⟩
  | assume d e => exact ⟨assume _ _, nofun⟩
  | compare d e => exact ⟨compare _ _, nofun⟩
  | negate d => exact ⟨negate _, nofun⟩
  | validate d => exact ⟨validate _, nofun⟩
  | tick e => exact ⟨tick _, nofun⟩
  | weigh e => exact ⟨weigh _, nofun⟩
  | demonic a b iha ihb => exact ⟨demonic _ _ iha.1 ihb.1, nofun⟩
  | angelic a b iha ihb => exact ⟨angelic _ _ iha.1 ihb.1, nofun⟩
  | additive a b iha ihb => exact ⟨additive _ _ iha.1 ihb.1, nofun⟩
  | ite c a b iha ihb => exact ⟨ite _ _ _ iha.1 ihb.1, nofun⟩
  | «while» c s ih => exact ⟨«while» _ _ ih.1, fun _ _ h => by cases h; exact ih.1⟩
  | annot an s ih => exact ⟨annot _ _ ih.1 ih.2, nofun⟩
  | label l => exact ⟨label _, nofun⟩

/-! ## Generated conditions are tame -/

section
variable {D : List Ident}

theorem fromOdds_tame {t : Ty} {pairs : List (Nat × Expr t)} {d : Dist t} (h : Dist.fromOdds pairs = .ok d) (hp : ∀ x ∈ pairs, x.2.Tame D) :
    ∀ x ∈ d, x.1.Tame D ∧ x.2.Tame D := by
  unfold Dist.fromOdds at h
  dsimp only at h
  split at h
  · cases h
  · cases h
    intro x hx
    obtain ⟨y, hy, rfl⟩ := List.mem_map.1 hx
    exact ⟨trivial, hp y hy⟩

theorem apply_tame {t : Ty} {d : DistCall t} {ds : Dist t} (h : d.apply = .ok ds) (hd : d.Tame D) : ∀ x ∈ ds, x.1.Tame D ∧ x.2.Tame D := by
  cases d with
  | ber pa pb => exact fromOdds_tame h (by simp [Expr.boolLit, Expr.Tame])
  | flip p =>
    cases h
    intro x hx
    rcases List.mem_cons.1 hx with rfl | hx
    · exact ⟨hd, trivial⟩
    · rw [List.mem_singleton.1 hx]
      exact ⟨⟨⟨.uint 1, rfl, one_ne_zero⟩, trivial, hd⟩, trivial⟩
  | unif a b =>
    refine fromOdds_tame h fun x hx => ?_
    obtain ⟨y, -, rfl⟩ := List.mem_map.1 hx
    trivial
  | binom n pa pb =>
    simp only [DistCall.apply] at h
    split at h
    · cases h
    · refine fromOdds_tame h fun x hx => ?_
      obtain ⟨y, -, rfl⟩ := List.mem_map.1 hx
      trivial
  | hyper a b c =>
    simp only [DistCall.apply] at h
    split at h
    · cases h
    · refine fromOdds_tame h fun x hx => ?_
      obtain ⟨y, -, rfl⟩ := List.mem_map.1 hx
      trivial

theorem fit_ereal (op : BinOp .eureal) (a : Expr .eureal) (h : op = .inf rfl ∨ op = .sup rfl ∨ op = .add rfl ∨ op = .mul rfl ∨ op = .impl rfl ∨ op = .coimpl rfl ∨
    op = .compare rfl ∨ op = .cocompare rfl) : op.Fit a := by
  rcases h with rfl | rfl | rfl | rfl | rfl | rfl | rfl | rfl
  · exact ⟨nofun, nofun⟩
  · exact ⟨nofun, nofun⟩
  all_goals trivial

theorem expectation_tame {t : Ty} {ds : Dist t} (hd : ∀ x ∈ ds, x.1.Tame D ∧ x.2.Tame D) {x : Ident} (hx : x ∈ D) {post e : Expr .eureal} (hp : post.Tame D)
    (h : ds.expectation x post = .ok e) : e.Tame D := by
  unfold Dist.expectation at h
  have hall : ∀ y ∈ ds.map (fun (prob, val) => Expr.bin (.mul rfl) prob (.subst ⟨x, t⟩ val post)), y.Tame D := by
    intro y hy
    obtain ⟨z, hz, rfl⟩ := List.mem_map.1 hy
    exact ⟨trivial, (hd z hz).1, hx, (hd z hz).2, hp⟩
  revert h hall
  generalize ds.map (fun (prob, val) => Expr.bin (.mul rfl) prob (.subst ⟨x, t⟩ val post)) = l
  intro h hall
  cases l with
  | nil => cases h
  | cons y ys =>
    cases h
    have hy := hall y List.mem_cons_self
    have hys : ∀ z ∈ ys, z.Tame D := fun z hz => hall z (List.mem_cons_of_mem _ hz)
    clear hall
    induction ys generalizing y with
    | nil => exact hy
    | cons z zs ih => exact ih _ ⟨trivial, hy, hys z List.mem_cons_self⟩ fun w hw => hys w (List.mem_cons_of_mem _ hw)

theorem vcgen_tame {S : Stmt} : ∀ {post e : Expr .eureal}, vcgen S post = .ok e → S.Tame D → post.Tame D → e.Tame D := by
  induction S with
  | skip => intro post e h _ hp; cases h; exact hp
  | varDecl => intro post e h _ hp; cases h; exact hp
  | label => intro post e h _ hp; cases h; exact hp
  | varInit x e => intro post e h hs hp; cases h; exact ⟨hs.1, hs.2, hp⟩
  | assign x e => intro post e h hs hp; cases h; exact ⟨hs.1, hs.2, hp⟩
  | call => intro post e h; cases h
  | «while» => intro post e h; cases h
  | sample b x d =>
    intro post e h hs hp
    obtain ⟨ds, h1, h2⟩ := bind_ok h
    exact expectation_tame (apply_tame h1 hs.2) hs.1 hp h2
  | seq a b iha ihb =>
    intro post e h hs hp
    obtain ⟨q, h1, h2⟩ := bind_ok h
    exact iha h2 hs.1 (ihb h1 hs.2 hp)
  | havoc d xs =>
    intro post e h hs hp
    have hq : ∀ q ∈ xs.map (QVar.mk false), q.var.id ∈ D := by
      intro q hq
      obtain ⟨x, hx, rfl⟩ := List.mem_map.1 hq
      exact hs x hx
    cases d <;> cases h <;> exact ⟨hq, hp⟩
  | assert d e => intro post e h hs hp; cases d <;> cases h <;> exact ⟨fit_ereal _ _ (by simp), hs, hp⟩
  | assume d e => intro post e h hs hp; cases d <;> cases h <;> exact ⟨fit_ereal _ _ (by simp), hs, hp⟩
  | compare d e => intro post e h hs hp; cases d <;> cases h <;> exact ⟨fit_ereal _ _ (by simp), hs, hp⟩
  | negate d => intro post e h hs hp; cases d <;> cases h <;> exact hp
  | tick e => intro post e h hs hp; cases h; exact ⟨fit_ereal _ _ (by simp), hs, hp⟩
  | weigh e => intro post e h hs hp; cases h; exact ⟨fit_ereal _ _ (by simp), hs, hp⟩
  | validate d =>
    intro post e h hs hp
    cases d <;> (simp only [vcgen] at h; split at h <;> cases h)
    · exact ⟨fit_ereal _ _ (by simp), hp.2.1, hp.2.2⟩
    · exact hp
    · exact ⟨fit_ereal _ _ (by simp), hp.2.1, hp.2.2⟩
    · exact hp
  | demonic a b iha ihb =>
    intro post e h hs hp
    obtain ⟨p1, h1, h⟩ := bind_ok h
    obtain ⟨p2, h2, h⟩ := bind_ok h
    cases h
    exact ⟨fit_ereal _ _ (by simp), iha h1 hs.1 hp, ihb h2 hs.2 hp⟩
  | angelic a b iha ihb =>
    intro post e h hs hp
    obtain ⟨p1, h1, h⟩ := bind_ok h
    obtain ⟨p2, h2, h⟩ := bind_ok h
    cases h
    exact ⟨fit_ereal _ _ (by simp), iha h1 hs.1 hp, ihb h2 hs.2 hp⟩
  | additive a b iha ihb =>
    intro post e h hs hp
    obtain ⟨p1, h1, h⟩ := bind_ok h
    obtain ⟨p2, h2, h⟩ := bind_ok h
    cases h
    exact ⟨fit_ereal _ _ (by simp), iha h1 hs.1 hp, ihb h2 hs.2 hp⟩
  | ite c a b iha ihb =>
    intro post e h hs hp
    obtain ⟨p1, h1, h⟩ := bind_ok h
    obtain ⟨p2, h2, h⟩ := bind_ok h
    cases h
    exact ⟨hs.1, iha h1 hs.2.1 hp, ihb h2 hs.2.2 hp⟩
  | annot an s ih =>
    intro post e h hs hp
    cases an with
    | slicing k => exact ih h hs.2 hp
    | _ => cases h

theorem encodeUnroll_tame {c : Expr .bool} {b next : Stmt} (hc : c.Tame D) (hb : b.Tame D) (hn : next.Tame D) (k : Nat) : (encodeUnroll c b k next).Tame D := by
  induction k with
  | zero => exact hn
  | succ k ih => exact ⟨⟨hc, ⟨hb, ih⟩, trivial⟩, trivial⟩

theorem heyConst_tame {t : Expr .eureal} (d : Dir) (ht : t.Tame D) : (heyConst t d).Tame D := by
  refine ⟨ht, ?_, trivial⟩
  cases d
  · exact trivial
  · exact trivial

end

/-- Whether there is a condition does not depend on the expectation after the statement. -/
theorem vcgen_any {S : Stmt} : ∀ {post e : Expr .eureal}, vcgen S post = .ok e → ∀ post', ∃ e', vcgen S post' = .ok e' := by
  have two : ∀ {a b : Stmt} {post : Expr .eureal} {f : Expr .eureal → Expr .eureal → Expr .eureal} {e : Expr .eureal},
      (∀ {post e : Expr .eureal}, vcgen a post = .ok e → ∀ post', ∃ e', vcgen a post' = .ok e') →
      (∀ {post e : Expr .eureal}, vcgen b post = .ok e → ∀ post', ∃ e', vcgen b post' = .ok e') →
      (do let p1 ← vcgen a post; let p2 ← vcgen b post; .ok (f p1 p2) : Except VcError (Expr .eureal)) = .ok e → ∀ post',
      ∃ e', (do let p1 ← vcgen a post'; let p2 ← vcgen b post'; .ok (f p1 p2) : Except VcError (Expr .eureal)) = .ok e' := by
    intro a b post f e iha ihb h post'
    obtain ⟨p1, h1, h⟩ := bind_ok h
    obtain ⟨p2, h2, h⟩ := bind_ok h
    obtain ⟨q1, hq1⟩ := iha h1 post'
    obtain ⟨q2, hq2⟩ := ihb h2 post'
    exact ⟨f q1 q2, by rw [hq1, hq2]; rfl⟩
  induction S with
  | skip => exact fun _ _ => ⟨_, rfl⟩
  | varDecl => exact fun _ _ => ⟨_, rfl⟩
  | label => exact fun _ _ => ⟨_, rfl⟩
  | varInit x e => exact fun _ _ => ⟨_, rfl⟩
  | assign x e => exact fun _ _ => ⟨_, rfl⟩
  | call => intro post e h; cases h
  | «while» => intro post e h; cases h
  | sample b x d =>
    intro post e h post'
    obtain ⟨ds, h1, h2⟩ := bind_ok h
    cases ds with
    | nil => cases h2
    | cons y ys => exact ⟨_, by rw [vcgen, h1]; rfl⟩
  | seq a b iha ihb =>
    intro post e h post'
    obtain ⟨q, h1, h2⟩ := bind_ok h
    obtain ⟨q', h3⟩ := ihb h1 post'
    obtain ⟨e', h4⟩ := iha h2 q'
    exact ⟨e', by rw [vcgen, h3]; exact h4⟩
  | havoc d xs => intro _ _ _ _; cases d <;> exact ⟨_, rfl⟩
  | assert d e => intro _ _ _ _; cases d <;> exact ⟨_, rfl⟩
  | assume d e => intro _ _ _ _; cases d <;> exact ⟨_, rfl⟩
  | compare d e => intro _ _ _ _; cases d <;> exact ⟨_, rfl⟩
  | negate d => intro _ _ _ _; cases d <;> exact ⟨_, rfl⟩
  | tick e => exact fun _ _ => ⟨_, rfl⟩
  | weigh e => exact fun _ _ => ⟨_, rfl⟩
  | validate d => intro _ _ _ post'; cases d <;> (simp only [vcgen]; split <;> exact ⟨_, rfl⟩)
  | demonic a b iha ihb => exact fun h => two iha ihb h
  | angelic a b iha ihb => exact fun h => two iha ihb h
  | additive a b iha ihb => exact fun h => two iha ihb h
  | ite c a b iha ihb => exact fun h => two iha ihb h
  | annot an s ih =>
    intro post e h
    cases an with
    | slicing k => exact ih h
    | _ => cases h

theorem encodeUnroll_vcgen {c : Expr .bool} {b : Stmt} (hb : ∀ post, ∃ e, vcgen b post = .ok e) (t : Expr .eureal) (d : Dir) (k : Nat) (post : Expr .eureal) :
    ∃ e, vcgen (encodeUnroll c b k (heyConst t d)) post = .ok e := by
  induction k with
  | zero => cases d <;> exact ⟨_, rfl⟩
  | succ k ih =>
    obtain ⟨e, he⟩ := ih
    obtain ⟨e', he'⟩ := hb e
    refine ⟨.ite c e' post, ?_⟩
    show ((((vcgen (encodeUnroll c b k (heyConst t d)) post).bind fun q => vcgen b q).bind fun p1 => .ok (.ite c p1 post)) : Except VcError (Expr .eureal)) = _
    rw [he]
    show ((vcgen b e).bind fun p1 => .ok (.ite c p1 post) : Except VcError (Expr .eureal)) = _
    rw [he']
    rfl

namespace Explain

/-! ## Computations -/

/-- The computation has a result satisfying `Q`, or (only if `N`) there is an error at a negation. -/
def Out (N : Prop) {α : Type} (m : M α) (s : State) (Q : α → State → Prop) : Prop :=
  (∃ a s', m s = .ok (a, s') ∧ Q a s') ∨ (N ∧ m s = .error .negation)

section
variable {N : Prop} {α β : Type}

theorem Out.pure {a : α} {s : State} {Q : α → State → Prop} (h : Q a s) : Out N (Pure.pure a : M α) s Q := .inl ⟨a, s, rfl, h⟩

theorem Out.bind {m : M α} {f : α → M β} {s : State} {Q : α → State → Prop} {R : β → State → Prop} (h : Out N m s Q)
    (h' : ∀ a s', Q a s' → Out N (f a) s' R) : Out N (m >>= f) s R := by
  have e : (m >>= f) s = (m s >>= fun r => f r.1 r.2) := rfl
  unfold Out
  rw [e]
  rcases h with ⟨a, s', h1, h2⟩ | ⟨h0, h1⟩
  · rw [h1]; exact h' a s' h2
  · rw [h1]; exact .inr ⟨h0, rfl⟩

theorem Out.imp {m : M α} {s : State} {Q R : α → State → Prop} (h : Out N m s Q) (h' : ∀ a s', Q a s' → R a s') : Out N m s R :=
  Or.imp (fun ⟨a, s', h1, h2⟩ => ⟨a, s', h1, h' a s' h2⟩) id h

theorem Out.show' (p : Place) (e : Expr .eureal) {s : State} {Q : Unit → State → Prop} (h : Q () { s with shown := (p, e) :: s.shown }) :
    Out N (addExpr p e) s Q := .inl ⟨_, _, rfl, h⟩

theorem Out.vc {a : α} {r : Except VcError α} (hr : r = .ok a) {s : State} {Q : α → State → Prop} (h : Q a s) : Out N (ofVc r) s Q := by
  rw [hr]; exact .inl ⟨_, _, rfl, h⟩

theorem Out.pass {m : PM UState α} {a : α} {u : UState} {s : State} (hm : m s.unf = some (a, u)) {Q : α → State → Prop} (h : Q a { s with unf := u }) :
    Out N (pass m) s Q := by
  refine .inl ⟨a, _, ?_, h⟩
  unfold Explain.pass
  rw [hm]

end

section
variable [Doms] [Interp]
variable {C : SemCtx} {o : Oracle} {N : Prop}
set_option linter.unusedSectionVars false

/-! ## What is told of statements which have a condition -/

theorem told_core {S : Stmt} : (∃ q e, vcgen S q = .ok e) → ∀ φ, told C S φ = vcSem C S φ := by
  classical
  induction S with
  | seq a b iha ihb =>
    rintro ⟨q, e, h⟩ φ
    obtain ⟨q1, h1, h2⟩ := bind_ok h
    show told C a (told C b φ) = _
    rw [ihb ⟨_, _, h1⟩, iha ⟨_, _, h2⟩]; rfl
  | demonic a b iha ihb | angelic a b iha ihb | additive a b iha ihb | ite c a b iha ihb =>
    rintro ⟨q, e, h⟩ φ
    obtain ⟨p1, h1, h⟩ := bind_ok h
    obtain ⟨p2, h2, h⟩ := bind_ok h
    funext σ
    have e1 := congrFun (iha ⟨_, _, h1⟩ φ) σ
    have e2 := congrFun (ihb ⟨_, _, h2⟩ φ) σ
    simp only [told, vcSem, e1, e2]
  | annot an s ih =>
    rintro ⟨q, e, h⟩ φ
    cases an with
    | slicing k => exact ih ⟨q, e, h⟩ φ
    | _ => cases h
  | _ => intro _ φ; rfl

theorem toldAt_nil (S : Stmt) (φ : Exp) : toldAt C S φ [] = told C S φ := by cases S <;> rfl

theorem toldAt_slicing (k : Nat) (s : Stmt) (φ : Exp) (r : Place) : toldAt C (.annot (.slicing k) s) φ r = toldAt C s φ r := by
  cases r with
  | nil => rw [toldAt_nil, toldAt_nil]; rfl
  | cons x r => cases x <;> rfl

theorem toldAt_fin (S : Stmt) (φ : Exp) : toldAt C S φ [.fin] = φ := by
  induction S with
  | annot an s ih => cases an <;> exact ih
  | _ => rfl

theorem toldAt_core {S : Stmt} : (∃ q e, vcgen S q = .ok e) → ∀ φ p, toldAt C S φ p = expAt C S φ p := by
  have two : ∀ {a b : Stmt} {q e : Expr .eureal} {f : Expr .eureal → Expr .eureal → Expr .eureal},
      (do let p1 ← vcgen a q; let p2 ← vcgen b q; .ok (f p1 p2) : Except VcError (Expr .eureal)) = .ok e →
      (∃ q e, vcgen a q = .ok e) ∧ ∃ q e, vcgen b q = .ok e := by
    intro a b q e f h
    obtain ⟨p1, h1, h⟩ := bind_ok h
    obtain ⟨p2, h2, h⟩ := bind_ok h
    exact ⟨⟨_, _, h1⟩, _, _, h2⟩
  induction S with
  | seq a b iha ihb =>
    intro hh φ p
    obtain ⟨q, e, h⟩ := id hh
    obtain ⟨q1, h1, h2⟩ := bind_ok h
    rcases p with _ | ⟨x, p⟩
    · exact told_core hh φ
    · cases x with
      | fst => show toldAt C a (told C b φ) p = expAt C a (vcSem C b φ) p; rw [told_core ⟨_, _, h1⟩, iha ⟨_, _, h2⟩]
      | snd => exact ihb ⟨_, _, h1⟩ φ p
      | fin => cases p <;> rfl
  | demonic a b iha ihb | angelic a b iha ihb | additive a b iha ihb | ite c a b iha ihb =>
    intro hh φ p
    obtain ⟨q, e, h⟩ := id hh
    obtain ⟨h1, h2⟩ := two h
    rcases p with _ | ⟨x, p⟩
    · exact told_core hh φ
    · cases x with
      | fst => exact iha h1 φ p
      | snd => exact ihb h2 φ p
      | fin => cases p <;> rfl
  | annot an s ih =>
    rintro ⟨q, e, h⟩ φ p
    cases an with
    | slicing k => rw [toldAt_slicing, ih ⟨q, e, h⟩]; cases p <;> [(cases s <;> rfl); rfl]
    | _ => cases h
  | _ =>
    intro _ φ p
    rcases p with _ | ⟨x, p⟩
    · rfl
    · cases x <;> cases p <;> rfl

/-! ## Programs that can be explained -/

/-- The precondition of `q` is tame, and its inputs are declared. -/
def PreTame (D : List Ident) (q : Proc) : Prop := (∀ e ∈ q.requires, e.Tame D) ∧ ∀ x ∈ q.ins, x.id ∈ D

/-- `S` has an explanation if the procedures are `P`, and calls mean the preconditions in `C`. -/
def CanX (C : SemCtx) (P : ProcTable) (D : List Ident) : Stmt → Prop
  | .sample b x d => ∃ q e, vcgen (.sample b x d) q = .ok e
  | .call _ l f args => ∃ q, P f = some q ∧ PreTame D q ∧ ∀ φ, (explainProcCall q args).ev = C.call l f args φ
  | .seq a b | .demonic a b | .angelic a b | .additive a b | .ite _ a b => CanX C P D a ∧ CanX C P D b
  | .annot (.slicing _) s => CanX C P D s
  | .annot (.invariant _) (.while _ s) => s.NoNeg ∧ CanX C P D s
  | .annot (.unroll _ _) (.while _ s) => s.NoNeg ∧ (∃ q e, vcgen s q = .ok e) ∧ CanX C P D s
  | .annot _ _ => False
  | .while _ _ => False
  | _ => True

theorem PreTame.mono {D D' : List Ident} (hD : D ⊆ D') {q : Proc} (h : PreTame D q) : PreTame D' q :=
  ⟨fun e he => (h.1 e he).mono hD, fun x hx => hD (h.2 x hx)⟩

theorem CanX.mono {P : ProcTable} {D D' : List Ident} (hD : D ⊆ D') : {S : Stmt} → CanX C P D S → CanX C P D' S
  | .call _ l f args, ⟨q, h1, h2, h3⟩ => ⟨q, h1, h2.mono hD, h3⟩
  | .seq a b, h | .demonic a b, h | .angelic a b, h | .additive a b, h | .ite _ a b, h => ⟨h.1.mono hD, h.2.mono hD⟩
  | .annot (.slicing _) s, h => CanX.mono (S := s) hD h
  | .annot (.invariant _) (.while _ s), h => ⟨h.1, h.2.mono hD⟩
  | .annot (.unroll _ _) (.while _ s), h => ⟨h.1, h.2.1, h.2.2.mono hD⟩
  | .sample .., h => h
  | .skip, _ | .varDecl .., _ | .varInit .., _ | .assign .., _ | .havoc .., _ | .assert .., _ | .assume .., _ | .compare .., _ | .negate .., _ | .validate .., _
  | .tick .., _ | .weigh .., _ | .label .., _ => trivial

theorem CanX.core {P : ProcTable} {D : List Ident} {S : Stmt} : (∃ q e, vcgen S q = .ok e) → CanX C P D S := by
  have two : ∀ {a b : Stmt} {q e : Expr .eureal} {f : Expr .eureal → Expr .eureal → Expr .eureal},
      (do let p1 ← vcgen a q; let p2 ← vcgen b q; .ok (f p1 p2) : Except VcError (Expr .eureal)) = .ok e →
      (∃ q e, vcgen a q = .ok e) ∧ ∃ q e, vcgen b q = .ok e := by
    intro a b q e f h
    obtain ⟨p1, h1, h⟩ := bind_ok h
    obtain ⟨p2, h2, h⟩ := bind_ok h
    exact ⟨⟨_, _, h1⟩, _, _, h2⟩
  induction S with
  | sample b x d => exact id
  | seq a b iha ihb =>
    rintro ⟨q, e, h⟩
    obtain ⟨q1, h1, h2⟩ := bind_ok h
    exact ⟨iha ⟨_, _, h2⟩, ihb ⟨_, _, h1⟩⟩
  | demonic a b iha ihb | angelic a b iha ihb | additive a b iha ihb | ite c a b iha ihb =>
    rintro ⟨q, e, h⟩
    exact ⟨iha (two h).1, ihb (two h).2⟩
  | annot an s ih =>
    rintro ⟨q, e, h⟩
    cases an with
    | slicing k => exact ih ⟨q, e, h⟩
    | _ => cases h
  | call => rintro ⟨q, e, h⟩; cases h
  | «while» => rintro ⟨q, e, h⟩; cases h
  | _ => exact fun _ => trivial

theorem foldSpec_tame {D : List Ident} (d : Dir) {es : List (Expr .eureal)} (h : ∀ e ∈ es, e.Tame D) : (foldSpec d es).Tame D := by
  have key : ∀ (es : List (Expr .eureal)) (a : Expr .eureal), a.Tame D → (∀ e ∈ es, e.Tame D) →
      (es.foldl (fun acc e => match d with | .down => .bin (.inf rfl) acc e | .up => .bin (.sup rfl) acc e) a).Tame D := by
    intro es
    induction es with
    | nil => exact fun a ha _ => ha
    | cons e es ih =>
      intro a ha he
      refine ih _ ?_ fun e' h' => he e' (List.mem_cons_of_mem _ h')
      cases d <;> exact ⟨fit_ereal _ _ (by simp), ha, he e List.mem_cons_self⟩
  cases es with
  | nil => cases d <;> trivial
  | cons e es =>
    have := key es e (h e List.mem_cons_self) fun e' h' => h e' (List.mem_cons_of_mem _ h')
    cases d <;> exact this

theorem substPairs_tame {D : List Ident} {ps : List ((x : Var) × Expr x.ty)} : ∀ {e : Expr .eureal}, e.Tame D → (∀ q ∈ ps, q.1.id ∈ D ∧ q.2.Tame D) →
    (substPairs e ps).Tame D := by
  induction ps with
  | nil => exact fun h _ => h
  | cons q qs ih =>
    intro e h hq
    exact ih (e := .subst q.1 q.2 e) ⟨(hq q List.mem_cons_self).1, (hq q List.mem_cons_self).2, h⟩ fun q' h' => hq q' (List.mem_cons_of_mem _ h')

theorem zipArgs_tame {D : List Ident} : ∀ {xs : List Var} {args : List ((t : Ty) × Expr t)}, (∀ x ∈ xs, x.id ∈ D) → (∀ a ∈ args, a.2.Tame D) →
    ∀ q ∈ zipArgs xs args, q.1.id ∈ D ∧ q.2.Tame D := by
  intro xs
  induction xs with
  | nil => intro args _ _ q hq; cases args <;> exact absurd hq List.not_mem_nil
  | cons x xs ih =>
    intro args hx ha q hq
    cases args with
    | nil => exact absurd hq List.not_mem_nil
    | cons a args =>
      obtain ⟨t, e⟩ := a
      have ih := ih (args := args) (fun x h => hx x (List.mem_cons_of_mem _ h)) fun a h => ha a (List.mem_cons_of_mem _ h)
      unfold zipArgs at hq
      split at hq
      next h =>
        subst h
        rcases List.mem_cons.1 hq with rfl | hq
        · exact ⟨hx _ List.mem_cons_self, ha _ List.mem_cons_self⟩
        · exact ih q hq
      next => exact ih q hq

theorem explainProcCall_tame {D : List Ident} {q : Proc} {args : List ((t : Ty) × Expr t)} (hq : PreTame D q) (ha : ∀ a ∈ args, a.2.Tame D) :
    (explainProcCall q args).Tame D := substPairs_tame (foldSpec_tame _ hq.1) (zipArgs_tame hq.2 ha)

/-! ## The expectations that are shown -/

theorem expAt_nil (S : Stmt) (φ : Exp) : expAt C S φ [] = vcSem C S φ := by cases S <;> rfl

theorem expAt_fin (S : Stmt) (φ : Exp) : expAt C S φ [.fin] = φ := by
  induction S with
  | annot an s ih => exact ih
  | _ => rfl

theorem expAt_annot (an : Annot) (s : Stmt) (φ : Exp) (r : Place) : expAt C (.annot an s) φ r = expAt C s φ r := by
  cases r with
  | nil => rw [expAt_nil, expAt_nil]; rfl
  | cons x r => rfl

/-- The result of generating the condition of `S` at place `p`. -/
structure Res (C : SemCtx) (S : Stmt) (p : Place) (φ : Exp) (s : State) (e : Expr .eureal) (s' : State) : Prop where
  tame : e.Tame s'.unf.1.decls
  grow : s.unf.1.decls ⊆ s'.unf.1.decls
  val : e.ev = told C S φ
  keep : s.shown ⊆ s'.shown
  right : ∀ x ∈ s'.shown, x ∈ s.shown ∨ ∃ r, x.1 = p ++ r ∧ x.2.ev = toldAt C S φ r
  all : ∀ r ∈ places S, ∃ e, (p ++ r, e) ∈ s'.shown

/-- What is known while the explanations of an assignment are computed. -/
structure Mid (p : Place) (v : Exp) (s : State) (e : Expr .eureal) (s' : State) : Prop where
  tame : e.Tame s'.unf.1.decls
  grow : s.unf.1.decls ⊆ s'.unf.1.decls
  val : e.ev = v
  keep : s.shown ⊆ s'.shown
  right : ∀ x ∈ s'.shown, x ∈ s.shown ∨ (x.1 = p ∧ x.2.ev = v)

theorem Mid.show {p : Place} {v : Exp} {s s' : State} {e : Expr .eureal} (h : Mid p v s e s') : Mid p v s e { s' with shown := (p, e) :: s'.shown } where
  tame := h.tame
  grow := h.grow
  val := h.val
  keep := fun _ hx => List.mem_cons_of_mem _ (h.keep hx)
  right := fun x hx => by
    rcases List.mem_cons.1 hx with rfl | hx
    · exact .inr ⟨rfl, h.val⟩
    · exact h.right x hx

theorem Mid.start {p : Place} {s : State} {e : Expr .eureal} (h : e.Tame s.unf.1.decls) : Mid p e.ev s e s where
  tame := h
  grow := fun _ h => h
  val := rfl
  keep := fun _ h => h
  right := fun _ h => .inl h

theorem Out.subst (ho : o.Sound) (span : Nat) (p : Place) {s : State} {e : Expr .eureal} (h : e.Tame s.unf.1.decls) :
    Out N (explainSubst o span p e) s (Mid p e.ev s) := by
  unfold explainSubst
  refine .bind (.show' p e (Q := fun _ s' => Mid p e.ev s e s') (Mid.start h).show) fun _ s1 h1 => ?_
  obtain ⟨e2, c2, ha, -, hv2, hg2, -⟩ := C04_apply_subst span e s1.unf.1 h1.tame.occurs
  have hl : liftTcx (applySubstTop span e) s1.unf = some (e2, (c2, s1.unf.2)) := by unfold liftTcx; rw [ha]; rfl
  have ht2 := (((applySubst_tame (D := c2.decls) span e .empty) _ _ _ ha).2 (fun _ h => h)).1 SubstFrame.Tame.empty (h1.tame.mono hg2)
  refine .bind (.pass hl (Q := fun e' s' => Mid p e.ev s e' s') ⟨ht2, fun _ h => hg2 (h1.grow h), (funext hv2).trans h1.val, h1.keep, h1.right⟩) fun e2 s2 h2 => ?_
  refine .bind (.show' p e2 (Q := fun _ s' => Mid p e.ev s e2 s') h2.show) fun _ s3 h3 => ?_
  obtain ⟨e4, u4, hu, -, -, hv4⟩ := C09_unfold ho span e2 s3.unf h3.tame.occurs
  have hp := (unfold_tame (D := u4.1.decls) o span e2 {} .empty) _ _ _ hu
  have ht4 := (hp.2 fun _ h => h).1 SubstFrame.Tame.empty (h3.tame.mono hp.1)
  refine .bind (.pass hu (Q := fun e' s' => Mid p e.ev s e' s') ⟨ht4, fun _ h => hp.1 (h3.grow h), (funext hv4).trans h3.val, h3.keep, h3.right⟩) fun e4 s4 h4 => ?_
  obtain ⟨e5, h5, hv5⟩ := C45_constFold_partial e4 h4.tame.foldSafe
  refine .pass (a := e5) (u := s4.unf) (by rw [h5]; rfl) ⟨(constFold_tame h5).1 h4.tame, h4.grow, (funext hv5).trans h4.val, h4.keep, h4.right⟩

theorem Mid.res {S : Stmt} (hS : places S ⊆ [[]]) {p : Place} {φ : Exp} {s s' : State} {e : Expr .eureal} (h : Mid p (told C S φ) s e s') :
    Out N (finish p e) s' (Res C S p φ s) := by
  unfold finish
  refine .bind (.show' p e (Q := fun _ s'' => Res C S p φ s e s'') ?_) fun _ s'' h => Out.pure h
  exact {
    tame := h.show.tame
    grow := h.show.grow
    val := h.show.val
    keep := h.show.keep
    right := fun x hx => (h.show.right x hx).imp_right fun ⟨h1, h2⟩ => ⟨[], by simpa using h1, by rw [toldAt_nil]; exact h2⟩
    all := fun r hr => by
      cases List.mem_singleton.1 (hS hr)
      exact ⟨e, by simp⟩ }

theorem Out.atom {S : Stmt} (hS : places S = [[]]) (p : Place) {s : State} {post e : Expr .eureal} (h : vcgen S post = .ok e) (hv : ValidateOk S post)
    (hg : S.GoodDists) (ht : S.Tame s.unf.1.decls) (hp : post.Tame s.unf.1.decls) :
    Out N (do finish p (← ofVc (vcgen S post))) s (Res C S p post.ev s) :=
  .bind (.vc h (Q := Mid p (told C S post.ev) s) (by rw [told_core ⟨_, _, h⟩, ← vcgen_sound C h hv hg]; exact .start (vcgen_tame h ht hp))) fun _ _ h => Mid.res (hS ▸ fun _ h => h) h

theorem Out.substAtom (ho : o.Sound) (span : Nat) {S : Stmt} (hS : places S = [[]]) (p : Place) {s : State} {post e : Expr .eureal} (h : vcgen S post = .ok e)
    (hv : ValidateOk S post) (hg : S.GoodDists) (ht : S.Tame s.unf.1.decls) (hp : post.Tame s.unf.1.decls) :
    Out N (do finish p (← explainSubst o span p e)) s (Res C S p post.ev s) :=
  .bind (.subst ho span p (vcgen_tame h ht hp)) fun _ _ hm => Mid.res (hS ▸ fun _ h => h) (by rw [told_core ⟨_, _, h⟩, ← vcgen_sound C h hv hg]; exact hm)

variable {P : ProcTable}

theorem Out.branch (span : Nat) {S a b : Stmt} {f : Expr .eureal → Expr .eureal → Expr .eureal} {p : Place} {s : State} {post : Expr .eureal}
    (hplaces : places S = [] :: [.fst, .fin] :: [.snd, .fin] :: ((places a).map (.fst :: ·) ++ (places b).map (.snd :: ·)))
    (hfst : ∀ r, toldAt C S post.ev (.fst :: r) = toldAt C a post.ev r) (hsnd : ∀ r, toldAt C S post.ev (.snd :: r) = toldAt C b post.ev r)
    (hf : ∀ D p1 p2, s.unf.1.decls ⊆ D → p1.Tame D → p2.Tame D → (f p1 p2).Tame D)
    (hval : ∀ p1 p2, p1.ev = told C a post.ev → p2.ev = told C b post.ev → (f p1 p2).ev = told C S post.ev)
    (ha : ∀ s', s.unf.1.decls ⊆ s'.unf.1.decls → Out N (vcgenX P o span a (p ++ [.fst]) post) s' (Res C a (p ++ [.fst]) post.ev s'))
    (hb : ∀ s', s.unf.1.decls ⊆ s'.unf.1.decls → Out N (vcgenX P o span b (p ++ [.snd]) post) s' (Res C b (p ++ [.snd]) post.ev s')) :
    Out N (do
      addExpr (p ++ [.fst, .fin]) post
      let p1 ← vcgenX P o span a (p ++ [.fst]) post
      addExpr (p ++ [.snd, .fin]) post
      let p2 ← vcgenX P o span b (p ++ [.snd]) post
      finish p (f p1 p2)) s (Res C S p post.ev s) := by
  refine .bind (.show' _ _ (Q := fun _ s1 => s1 = { s with shown := (p ++ [.fst, .fin], post) :: s.shown }) rfl) fun _ s1 h1 => ?_
  have g1 : s.unf.1.decls ⊆ s1.unf.1.decls := by rw [h1]; exact fun _ h => h
  refine .bind (ha s1 g1) fun p1 s2 r2 => ?_
  refine .bind (.show' _ _ (Q := fun _ s3 => s3 = { s2 with shown := (p ++ [.snd, .fin], post) :: s2.shown }) rfl) fun _ s3 h3 => ?_
  have g3 : s2.unf.1.decls ⊆ s3.unf.1.decls := by rw [h3]; exact fun _ h => h
  have g03 : s.unf.1.decls ⊆ s3.unf.1.decls := fun _ h => g3 (r2.grow (g1 h))
  refine .bind (hb s3 g03) fun p2 s4 r4 => ?_
  unfold finish
  refine .bind (.show' p _ (Q := fun _ s5 => s5 = { s4 with shown := (p, f p1 p2) :: s4.shown }) rfl) fun _ s5 h5 => .pure ?_
  have g05 : s.unf.1.decls ⊆ s5.unf.1.decls := by rw [h5]; exact fun _ h => r4.grow (g03 h)
  have v := hval p1 p2 r2.val r4.val
  have k3 : s2.shown ⊆ s3.shown := by rw [h3]; exact List.subset_cons_self _ _
  have k5 : s4.shown ⊆ s5.shown := by rw [h5]; exact List.subset_cons_self _ _
  have k1 : s.shown ⊆ s1.shown := by rw [h1]; exact List.subset_cons_self _ _
  have k25 : s2.shown ⊆ s5.shown := fun _ h => k5 (r4.keep (k3 h))
  exact {
    tame := by
      rw [h5]
      exact hf _ _ _ (fun _ h => r4.grow (g03 h)) (r2.tame.mono fun _ h => r4.grow (g3 h)) r4.tame
    grow := g05
    val := v
    keep := fun _ h => k25 (r2.keep (k1 h))
    right := fun x hx => by
      rw [h5] at hx
      rcases List.mem_cons.1 hx with rfl | hx
      · exact .inr ⟨[], (List.append_nil _).symm, by rw [toldAt_nil]; exact v⟩
      · rcases r4.right x hx with hx | ⟨r, hr, he⟩
        · rw [h3] at hx
          rcases List.mem_cons.1 hx with rfl | hx
          · exact .inr ⟨_, rfl, by rw [hsnd, toldAt_fin]⟩
          · rcases r2.right x hx with hx | ⟨r, hr, he⟩
            · rw [h1] at hx
              rcases List.mem_cons.1 hx with rfl | hx
              · exact .inr ⟨_, rfl, by rw [hfst, toldAt_fin]⟩
              · exact .inl hx
            · exact .inr ⟨.fst :: r, by simpa using hr, by rw [hfst]; exact he⟩
        · exact .inr ⟨.snd :: r, by simpa using hr, by rw [hsnd]; exact he⟩
    all := fun r hr => by
      rw [hplaces] at hr
      rcases List.mem_cons.1 hr with rfl | hr
      · exact ⟨f p1 p2, by rw [h5]; simp⟩
      rcases List.mem_cons.1 hr with rfl | hr
      · exact ⟨post, k25 (r2.keep (by rw [h1]; exact List.mem_cons_self))⟩
      rcases List.mem_cons.1 hr with rfl | hr
      · exact ⟨post, k5 (r4.keep (by rw [h3]; exact List.mem_cons_self))⟩
      rcases List.mem_append.1 hr with hr | hr
      · obtain ⟨q, hq, rfl⟩ := List.mem_map.1 hr
        obtain ⟨e, he⟩ := r2.all q hq
        exact ⟨e, k25 (by simpa using he)⟩
      · obtain ⟨q, hq, rfl⟩ := List.mem_map.1 hr
        obtain ⟨e, he⟩ := r4.all q hq
        exact ⟨e, k5 (by simpa using he)⟩ }

theorem Out.and {α : Type} {m : M α} {s : State} {Q R : α → State → Prop} (h : Out N m s Q) (h' : ∀ a s', m s = .ok (a, s') → R a s') :
    Out N m s fun a s' => Q a s' ∧ R a s' :=
  Or.imp (fun ⟨a, s', h1, h2⟩ => ⟨a, s', h1, h2, h' a s' h1⟩) id h

theorem bind_run {α β : Type} {m : M α} {f : α → M β} {s s' : State} {b : β} (h : (m >>= f) s = .ok (b, s')) :
    ∃ a s1, m s = .ok (a, s1) ∧ f a s1 = .ok (b, s') := by
  obtain ⟨⟨a, s1⟩, h1, h2⟩ := bind_ok (m := m s) (f := fun r => f r.1 r.2) h
  exact ⟨a, s1, h1, h2⟩

theorem headAssume_shape {span : Nat} {d : Dir} {b : Stmt} (h : b.HeadAssume d) {p : Place} {post e : Expr .eureal} {s s' : State}
    (hr : vcgenX P o span b p post s = .ok (e, s')) : ValidateOk (.validate d) e := by
  match b, h with
  | .seq (.annot (.slicing k) (.assume d' e')) rest, h =>
    cases h
    obtain ⟨q, s1, h1, h2⟩ := bind_run hr
    cases d
    · cases h2; exact Or.inl ⟨_, _, rfl⟩
    · cases h2; exact Or.inl ⟨_, _, rfl⟩

theorem Out.seq {span : Nat} {a b : Stmt} {p : Place} {s : State} {post : Expr .eureal} {R : Expr .eureal → State → Prop}
    (hb : Out N (vcgenX P o span b (p ++ [.snd]) post) s fun e s' => Res C b (p ++ [.snd]) post.ev s e s' ∧ R e s')
    (ha : ∀ q s', Res C b (p ++ [.snd]) post.ev s q s' → R q s' → Out N (vcgenX P o span a (p ++ [.fst]) q) s' (Res C a (p ++ [.fst]) q.ev s')) :
    Out N (vcgenX P o span (.seq a b) p post) s (Res C (.seq a b) p post.ev s) := by
  refine .bind hb fun q s1 ⟨r1, hP⟩ => (ha q s1 r1 hP).imp fun e s2 r2 => ?_
  have hf : ∀ r, toldAt C (.seq a b) post.ev (.fst :: r) = toldAt C a q.ev r := fun r => by rw [r1.val]; rfl
  have hs : ∀ r, toldAt C (.seq a b) post.ev (.snd :: r) = toldAt C b post.ev r := fun r => rfl
  exact {
    tame := r2.tame
    grow := fun _ h => r2.grow (r1.grow h)
    val := by rw [r2.val, r1.val]; rfl
    keep := fun _ h => r2.keep (r1.keep h)
    right := fun x hx => by
      rcases r2.right x hx with hx | ⟨r, hr, he⟩
      · rcases r1.right x hx with hx | ⟨r, hr, he⟩
        · exact .inl hx
        · exact .inr ⟨.snd :: r, by simpa using hr, by rw [hs]; exact he⟩
      · exact .inr ⟨.fst :: r, by simpa using hr, by rw [hf]; exact he⟩
    all := fun r hr => by
      rcases List.mem_append.1 hr with hr | hr
      · obtain ⟨q, hq, rfl⟩ := List.mem_map.1 hr
        obtain ⟨e, he⟩ := r2.all q hq
        exact ⟨e, by simpa using he⟩
      · obtain ⟨q, hq, rfl⟩ := List.mem_map.1 hr
        obtain ⟨e, he⟩ := r1.all q hq
        exact ⟨e, r2.keep (by simpa using he)⟩ }

theorem Res.silent {S : Stmt} (hS : places S = []) {p : Place} {s : State} {post e : Expr .eureal} (h : vcgen S post = .ok e) (hv : ValidateOk S post)
    (hg : S.GoodDists) (ht : S.Tame s.unf.1.decls) (hp : post.Tame s.unf.1.decls) : Res C S p post.ev s e s where
  tame := vcgen_tame h ht hp
  grow := fun _ h => h
  val := (vcgen_sound C h hv hg).trans (told_core ⟨_, _, h⟩ _).symm
  keep := fun _ h => h
  right := fun _ h => .inl h
  all := fun r hr => by rw [hS] at hr; exact absurd hr List.not_mem_nil

theorem Out.validate {span : Nat} {d : Dir} {p : Place} {s : State} {post : Expr .eureal} (hv : ValidateOk (.validate d) post) (hp : post.Tame s.unf.1.decls) :
    Out N (vcgenX P o span (.validate d) p post) s (Res C (.validate d) p post.ev s) := by
  have key : ∀ e, vcgen (.validate d) post = .ok e → Out N (finish p e) s (Res C (.validate d) p post.ev s) := fun e h =>
    Mid.res (List.nil_subset _) (by rw [told_core ⟨_, _, h⟩, ← vcgen_sound C h hv trivial]; exact .start (vcgen_tame h trivial hp))
  cases d
  · simp only [vcgenX]
    split
    · exact .pure (.silent rfl rfl hv trivial trivial hp)
    · refine key _ ?_
      simp only [vcgen]
  · simp only [vcgenX]
    split
    · exact .pure (.silent rfl rfl hv trivial trivial hp)
    · refine key _ ?_
      simp only [vcgen]

theorem Out.turn {d : Dir} {s : State} (hn : N) {f : Unit → M (Expr .eureal)} {Q : Expr .eureal → State → Prop} (h : ∀ d', Out N (f ()) { s with dir := d' } Q) :
    Out N (Explain.turn (.negate d) >>= f) s Q := by
  refine .bind (Q := fun _ s' => ∃ d', s' = { s with dir := d' }) ?_ fun _ s' ⟨d', hd⟩ => hd ▸ h d'
  unfold Explain.turn
  cases hh : handleNegationBackwards s.dir (.negate d) with
  | ok d' => exact .inl ⟨(), { s with dir := d' }, by simp only [hh], d', rfl⟩
  | error e => exact .inr ⟨hn, by simp only [hh]⟩

theorem Out.attempt {α : Type} {m : M α} {s : State} {Q : α → State → Prop} (h : Out False m s Q) : Out N (Explain.attempt m) s fun _ s' => ∃ a, Q a s' := by
  rcases h with ⟨a, s', h1, h2⟩ | ⟨h, -⟩
  · exact .inl ⟨(), s', by unfold Explain.attempt; rw [h1], a, h2⟩
  · exact h.elim

/-- What the explanation of the body of a loop at `p` shows. -/
def InBody (C : SemCtx) (S : Stmt) (p : Place) (ψ : Exp) (s s' : State) : Prop :=
  s.unf.1.decls ⊆ s'.unf.1.decls ∧ s.shown ⊆ s'.shown ∧ (∀ x ∈ s'.shown, x ∈ s.shown ∨ ∃ r, x.1 = p ++ .fst :: r ∧ x.2.ev = toldAt C S ψ r) ∧
    ∀ r ∈ [.fin] :: places S, ∃ e, (p ++ .fst :: r, e) ∈ s'.shown

theorem Out.body {span : Nat} {S : Stmt} {p : Place} {s : State} {post : Expr .eureal}
    (h : ∀ s', s.unf.1.decls ⊆ s'.unf.1.decls → Out False (vcgenX P o span S (p ++ [.fst]) post) s' (Res C S (p ++ [.fst]) post.ev s')) :
    Out N (Explain.attempt (do addExpr (p ++ [.fst, .fin]) post; vcgenX P o span S (p ++ [.fst]) post)) s fun _ s' =>
      InBody C S p post.ev s s' := by
  have h' : Out False (do addExpr (p ++ [.fst, .fin]) post; vcgenX P o span S (p ++ [.fst]) post) s fun _ s' =>
      InBody C S p post.ev s s' := by
    refine .bind (.show' _ _ (Q := fun _ s1 => s1 = { s with shown := (p ++ [.fst, .fin], post) :: s.shown }) rfl) fun _ s1 h1 => ?_
    have g1 : s.unf.1.decls ⊆ s1.unf.1.decls := by rw [h1]; exact fun _ h => h
    refine (h s1 g1).imp fun e s2 r2 => ⟨fun _ h => r2.grow (g1 h), fun _ h => r2.keep (by rw [h1]; exact List.mem_cons_of_mem _ h), fun x hx => ?_, fun r hr => ?_⟩
    · rcases r2.right x hx with hx | ⟨r, hr, he⟩
      · rw [h1] at hx
        rcases List.mem_cons.1 hx with rfl | hx
        · exact .inr ⟨_, rfl, by rw [toldAt_fin]⟩
        · exact .inl hx
      · exact .inr ⟨r, by simpa using hr, he⟩
    · rcases List.mem_cons.1 hr with rfl | hr
      · exact ⟨post, r2.keep (by rw [h1]; exact List.mem_cons_self)⟩
      · obtain ⟨e, he⟩ := r2.all r hr
        exact ⟨e, by simpa using he⟩
  exact h'.attempt.imp fun _ s' ⟨_, h⟩ => h

/-- The last step of the explanation of a loop. -/
theorem Res.loop {S : Stmt} {p : Place} {φ : Exp} {s s1 s2 : State} {e : Expr .eureal} {body : Stmt} {ψ : Exp}
    (hb : InBody C body p ψ s s1)
    (hfst : ∀ r, toldAt C S φ (.fst :: r) = toldAt C body ψ r) (hplaces : places S = [] :: [.fst, .fin] :: (places body).map (.fst :: ·))
    (hm : Mid p (told C S φ) s1 e s2) : Res C S p φ s e { s2 with shown := (p, e) :: s2.shown } where
  tame := hm.tame
  grow := fun _ h => hm.grow (hb.1 h)
  val := hm.val
  keep := fun _ h => List.mem_cons_of_mem _ (hm.keep (hb.2.1 h))
  right := fun x hx => by
    rcases hm.show.right x hx with hx | ⟨h1, h2⟩
    · rcases hb.2.2.1 x hx with hx | ⟨r, hr, he⟩
      · exact .inl hx
      · exact .inr ⟨.fst :: r, hr, by rw [hfst]; exact he⟩
    · exact .inr ⟨[], by simpa using h1, by rw [toldAt_nil]; exact h2⟩
  all := fun r hr => by
    rw [hplaces] at hr
    rcases List.mem_cons.1 hr with rfl | hr
    · exact ⟨e, by simp⟩
    rcases List.mem_cons.1 hr with rfl | hr
    · obtain ⟨e, he⟩ := hb.2.2.2 _ List.mem_cons_self
      exact ⟨e, List.mem_cons_of_mem _ (hm.keep he)⟩
    · obtain ⟨q, hq, rfl⟩ := List.mem_map.1 hr
      obtain ⟨e, he⟩ := hb.2.2.2 q (List.mem_cons_of_mem _ hq)
      exact ⟨e, List.mem_cons_of_mem _ (hm.keep he)⟩

/-- The condition of an unrolled loop. -/
theorem unroll_out {c : Expr .bool} {body : Stmt} (hb : ∃ q e, vcgen body q = .ok e) (hgu : body.Guarded) (hg : body.GoodDists) {D : List Ident} (hc : c.Tame D)
    (ht : body.Tame D) {t post : Expr .eureal} (htt : t.Tame D) (hp : post.Tame D) (d : Dir) (k : Nat) :
    ∃ e, vcgen (encodeUnroll c body k (heyConst t d)) post = .ok e ∧ e.Tame D ∧ e.ev = told C (.annot (.unroll k t) (.while c body)) post.ev := by
  classical
  obtain ⟨q, e0, hv⟩ := id hb
  obtain ⟨e, he⟩ := encodeUnroll_vcgen (c := c) (vcgen_any hv) t d k post
  refine ⟨e, he, vcgen_tame he (encodeUnroll_tame hc ht (heyConst_tame d htt) k) hp, ?_⟩
  have hgd : (heyConst t d).GoodDists := ⟨trivial, trivial, trivial⟩
  have hgh : (heyConst t d).Guarded := ⟨trivial, trivial, trivial⟩
  rw [vcgen_sound C he ((encodeUnroll_guarded hgu hgh k).validateOk post) (encodeUnroll_goodDists hg hgd k), encodeUnroll_sem, heyConst_sem]
  show _ = (fun ψ σ => if c.tv σ then told C body ψ σ else post.ev σ)^[k] t.ev
  congr 1
  funext ψ σ
  unfold loopFun
  rw [told_core hb]

theorem vcgenX_out (ho : o.Sound) (span : Nat) {S : Stmt} : ∀ {N : Prop} (p : Place) (post : Expr .eureal) (s : State), CanX C P s.unf.1.decls S → S.Guarded → S.GoodDists →
    (S.NoNeg ∨ N) → S.Tame s.unf.1.decls → post.Tame s.unf.1.decls → Out N (vcgenX P o span S p post) s (Res C S p post.ev s) := by
  classical
  induction S using Stmt.loopRec with
  | skip => intro N p post s _ _ _ _ _ hp; exact .pure (.silent rfl rfl trivial trivial trivial hp)
  | varDecl x => intro N p post s _ _ _ _ ht hp; exact .atom rfl p rfl trivial trivial ht hp
  | label l => intro N p post s _ _ _ _ ht hp; exact .atom rfl p rfl trivial trivial ht hp
  | varInit x e => intro N p post s _ _ _ _ ht hp; exact .substAtom ho span rfl p rfl trivial trivial ht hp
  | assign x e => intro N p post s _ _ _ _ ht hp; exact .substAtom ho span rfl p rfl trivial trivial ht hp
  | sample b x d =>
    intro N p post s hv _ hg _ ht hp
    obtain ⟨q, e, hv⟩ := hv
    obtain ⟨e, hv⟩ := vcgen_any hv post
    exact .bind (.vc hv (Q := fun a s' => a = e ∧ s' = s) ⟨rfl, rfl⟩) fun _ _ ⟨h1, h2⟩ => by
      rw [h1, h2]
      exact .substAtom ho span rfl p hv trivial hg ht hp
  | seq a b iha ihb =>
    intro N p post s hv hgu hg hn ht hp
    have hnb : b.NoNeg ∨ N := hn.imp_left And.right
    have hna : a.NoNeg ∨ N := hn.imp_left And.left
    have hd : (∃ d, a = .validate d ∧ b.HeadAssume d ∧ b.Guarded) ∨ (a.Guarded ∧ b.Guarded) := by
      cases a with
      | validate d => exact .inl ⟨d, rfl, hgu⟩
      | _ => exact .inr hgu
    rcases hd with ⟨d, rfl, hh, hgb⟩ | ⟨hga, hgb⟩
    · refine .seq (R := fun e _ => ValidateOk (.validate d) e) (.and (ihb _ _ _ hv.2 hgb hg.2 hnb ht.2 hp) fun e s' h => headAssume_shape hh h) ?_
      exact fun q s' r hP => .validate hP r.tame
    · refine .seq (R := fun _ _ => True) (.and (ihb _ _ _ hv.2 hgb hg.2 hnb ht.2 hp) fun _ _ _ => trivial) ?_
      exact fun q s' r _ => iha _ _ _ (hv.1.mono r.grow) hga hg.1 hna (ht.1.mono r.grow) r.tame
  | havoc d xs => intro N p post s _ _ _ _ ht hp; cases d <;> exact .atom rfl p rfl trivial trivial ht hp
  | assert d e => intro N p post s _ _ _ _ ht hp; cases d <;> exact .atom rfl p rfl trivial trivial ht hp
  | assume d e => intro N p post s _ _ _ _ ht hp; cases d <;> exact .atom rfl p rfl trivial trivial ht hp
  | compare d e => intro N p post s _ _ _ _ ht hp; cases d <;> exact .atom rfl p rfl trivial trivial ht hp
  | tick e => intro N p post s _ _ _ _ ht hp; exact .atom rfl p rfl trivial trivial ht hp
  | weigh e => intro N p post s _ _ _ _ ht hp; exact .atom rfl p rfl trivial trivial ht hp
  | negate d =>
    intro N p post s _ _ _ hn ht hp
    have hN : N := hn.elim (fun h => h.elim) id
    refine .turn hN fun d' => ?_
    have h : Out N (do finish p (← ofVc (vcgen (.negate d) post))) { s with dir := d' } (Res C (.negate d) p post.ev { s with dir := d' }) := by
      cases d <;> exact .atom rfl p rfl trivial trivial ht hp
    exact h.imp fun e s' r => ⟨r.tame, r.grow, r.val, r.keep, r.right, r.all⟩
  | validate d => intro N p post s _ h; exact h.elim
  | call b l f args =>
    rintro N p post s ⟨q, hq, hd, hc⟩ - - - ht hp
    simp only [vcgenX, hq]
    refine .bind (.subst ho span p (explainProcCall_tame hd ht)) fun _ _ hm => Mid.res (List.Subset.refl _) ?_
    show Mid p (C.call l f args post.ev) s _ _
    rw [← hc]
    exact hm
  | «while» => intro N p post s h; exact h.elim
  | demonic a b iha ihb =>
    intro N p post s hv hgu hg hn ht hp
    refine .branch span (S := .demonic a b) (f := fun p1 p2 => .bin (.inf rfl) p1 p2) rfl (fun _ => rfl) (fun _ => rfl)
      (fun D _ _ _ h1 h2 => ⟨fit_ereal _ _ (by simp), h1, h2⟩) ?_
      (fun s' hs => iha _ _ _ (hv.1.mono hs) hgu.1 hg.1 (hn.imp_left And.left) (ht.1.mono hs) (hp.mono hs))
      (fun s' hs => ihb _ _ _ (hv.2.mono hs) hgu.2 hg.2 (hn.imp_left And.right) (ht.2.mono hs) (hp.mono hs))
    intro p1 p2 h1 h2
    funext σ
    rw [Expr.ev_inf, h1, h2]; rfl
  | angelic a b iha ihb =>
    intro N p post s hv hgu hg hn ht hp
    refine .branch span (S := .angelic a b) (f := fun p1 p2 => .bin (.sup rfl) p1 p2) rfl (fun _ => rfl) (fun _ => rfl)
      (fun D _ _ _ h1 h2 => ⟨fit_ereal _ _ (by simp), h1, h2⟩) ?_
      (fun s' hs => iha _ _ _ (hv.1.mono hs) hgu.1 hg.1 (hn.imp_left And.left) (ht.1.mono hs) (hp.mono hs))
      (fun s' hs => ihb _ _ _ (hv.2.mono hs) hgu.2 hg.2 (hn.imp_left And.right) (ht.2.mono hs) (hp.mono hs))
    intro p1 p2 h1 h2
    funext σ
    rw [Expr.ev_sup, h1, h2]; rfl
  | additive a b iha ihb =>
    intro N p post s hv hgu hg hn ht hp
    refine .branch span (S := .additive a b) (f := fun p1 p2 => .bin (.add rfl) p1 p2) rfl (fun _ => rfl) (fun _ => rfl)
      (fun D _ _ _ h1 h2 => ⟨fit_ereal _ _ (by simp), h1, h2⟩) ?_
      (fun s' hs => iha _ _ _ (hv.1.mono hs) hgu.1 hg.1 (hn.imp_left And.left) (ht.1.mono hs) (hp.mono hs))
      (fun s' hs => ihb _ _ _ (hv.2.mono hs) hgu.2 hg.2 (hn.imp_left And.right) (ht.2.mono hs) (hp.mono hs))
    intro p1 p2 h1 h2
    funext σ
    rw [Expr.ev_add, h1, h2]; rfl
  | ite c a b iha ihb =>
    intro N p post s hv hgu hg hn ht hp
    refine .branch span (S := .ite c a b) (f := fun p1 p2 => .ite c p1 p2) rfl (fun _ => rfl) (fun _ => rfl)
      (fun D _ _ hD h1 h2 => ⟨ht.1.mono hD, h1, h2⟩) ?_
      (fun s' hs => iha _ _ _ (hv.1.mono hs) hgu.1 hg.1 (hn.imp_left And.left) (ht.2.1.mono hs) (hp.mono hs))
      (fun s' hs => ihb _ _ _ (hv.2.mono hs) hgu.2 hg.2 (hn.imp_left And.right) (ht.2.2.mono hs) (hp.mono hs))
    intro p1 p2 h1 h2
    funext σ
    rw [Expr.ev_ite, h1, h2]; rfl
  | annot an s ih ihb =>
    intro N p post st hv hgu hg hn ht hp
    cases an with
    | slicing k =>
      refine (ih p post st hv hgu hg hn ht.2 hp).imp fun e s' r => ⟨r.tame, r.grow, r.val, r.keep, fun x hx => ?_, r.all⟩
      exact (r.right x hx).imp_right fun ⟨r', h1, h2⟩ => ⟨r', h1, by rw [toldAt_slicing]; exact h2⟩
    | invariant I =>
      cases s with
      | «while» c body =>
        have hI : I.Tame st.unf.1.decls := ht.1
        refine .bind (.body (C := C) (S := body) (post := I) fun s' hs => ihb c body rfl _ _ _ (hv.2.mono hs) hgu hg (.inl hv.1) (ht.2.2.mono hs) (hI.mono hs))
          fun _ s1 hb => ?_
        unfold finish
        exact .bind (.show' p I (Q := fun _ s2 => s2 = { s1 with shown := (p, I) :: s1.shown }) rfl) fun _ s2 h2 => .pure
          (h2 ▸ Res.loop hb (fun _ => rfl) rfl (Mid.start (hI.mono hb.1)))
      | _ => exact hv.elim
    | unroll k t =>
      cases s with
      | «while» c body =>
        have htt : t.Tame st.unf.1.decls := ht.1
        obtain ⟨e, he, hte, hve⟩ := unroll_out (C := C) hv.2.1 hgu hg ht.2.1 ht.2.2 htt hp st.dir k
        refine .bind (m := get) (Q := fun s0 s1 => s0 = st ∧ s1 = st) (.inl ⟨st, st, rfl, rfl, rfl⟩) fun s0 s1 h => ?_
        obtain ⟨rfl, rfl⟩ := h
        cases k with
        | zero =>
          refine .bind (Q := fun _ s2 => s2 = s1) (.pure rfl) fun _ s2 h => ?_
          subst h
          refine .bind (.vc he (Q := fun e' s3 => e' = e ∧ s3 = s2) ⟨rfl, rfl⟩) fun e' s3 h => ?_
          obtain ⟨rfl, rfl⟩ := h
          exact .bind (.subst ho span p hte) fun _ _ hm => Mid.res (List.Subset.refl _) (hve ▸ hm)
        | succ k =>
          obtain ⟨e1, he1, hte1, hve1⟩ := unroll_out (C := C) hv.2.1 hgu hg ht.2.1 ht.2.2 htt hp s1.dir k
          dsimp only
          rw [if_pos (Nat.succ_pos k)]
          refine .bind (Q := fun _ s4 => InBody C body p e1.ev s1 s4) (.bind (.vc he1 (Q := fun e' s3 => e' = e1 ∧ s3 = s1) ⟨rfl, rfl⟩) fun e' s3 h => ?_) fun _ s4 hb => ?_
          · obtain ⟨rfl, rfl⟩ := h
            exact .body (C := C) (S := body) fun s' hs => ihb c body rfl _ _ _ (hv.2.2.mono hs) hgu hg (.inl hv.1) (ht.2.2.mono hs) (hte1.mono hs)
          · refine .bind (.vc he (Q := fun e' s3 => e' = e ∧ s3 = s4) ⟨rfl, rfl⟩) fun e' s3 h => ?_
            obtain ⟨rfl, rfl⟩ := h
            refine .bind (.subst ho span p (hte.mono hb.1)) fun e5 s5 hm => ?_
            unfold finish
            refine .bind (.show' p e5 (Q := fun _ s6 => s6 = { s5 with shown := (p, e5) :: s5.shown }) rfl) fun _ s6 h6 => .pure (h6 ▸ Res.loop hb (fun r => ?_) rfl (hve ▸ hm))
            rw [hve1]; rfl
      | _ => exact hv.elim
    | _ => exact hv.elim

end

end Explain
end Caesar
