import Verif.Front.TyAgain

/-!
# Type checking of statements and procedures is sound
-/

namespace Caesar
namespace Front

/-! ## What type checking leaves alone -/

mutual

theorem lets_strip : ∀ e : RExpr, e.strip.lets = e.lets
  | .var _ _ => by simp only [RExpr.strip, RExpr.lets]
  | .call _ _ args => by simp only [RExpr.strip, RExpr.lets, letsL_strip args]
  | .ite _ c a b => by simp only [RExpr.strip, RExpr.lets, lets_strip c, lets_strip a, lets_strip b]
  | .bin _ _ a b => by simp only [RExpr.strip, RExpr.lets, lets_strip a, lets_strip b]
  | .un _ _ a => by simp only [RExpr.strip, RExpr.lets, lets_strip a]
  | .cast _ a => by simp only [RExpr.strip, RExpr.lets, lets_strip a]
  | .quant _ _ _ tr a => by simp only [RExpr.strip, RExpr.lets, letsLL_strip tr, lets_strip a]
  | .subst _ _ v a => by simp only [RExpr.strip, RExpr.lets, lets_strip v, lets_strip a]
  | .lit _ _ => by simp only [RExpr.strip, RExpr.lets]

theorem letsL_strip : ∀ es : List RExpr, letsL (stripL es) = letsL es
  | [] => rfl
  | e :: es => by simp only [stripL, letsL, lets_strip e, letsL_strip es]

theorem letsLL_strip : ∀ es : List (List RExpr), letsLL (stripLL es) = letsLL es
  | [] => rfl
  | e :: es => by simp only [stripLL, letsLL, letsL_strip e, letsLL_strip es]

end

theorem Frame.twice {xs : List Ident} {Γ₁ Γ₂ Γ₃ : Ctx} (h : Frame xs Γ₁ Γ₂) (h' : Frame xs Γ₂ Γ₃) : Frame xs Γ₁ Γ₃ :=
  ⟨h.1.trans h'.1, fun x hx => (h'.2 x hx).trans (h.2 x hx)⟩

/-- The variables bound by `let` in an initialiser. -/
def letsInit : Option RExpr → List Ident
  | none => []
  | some e => e.lets

theorem checkVarDecl_frame {t : Ty} {i i' : Option RExpr} {Γ Γ' : Ctx} (h : checkVarDecl t i Γ = some (i', Γ')) :
    Frame (letsInit i) Γ Γ' ∧ i'.map RExpr.strip = i.map RExpr.strip := by
  cases i with
  | none =>
    simp only [checkVarDecl, Option.some.injEq, Prod.mk.injEq] at h
    obtain ⟨rfl, rfl⟩ := h
    exact ⟨Frame.refl _, rfl⟩
  | some e =>
    simp only [checkVarDecl, Option.bind_eq_bind, Option.bind_eq_some_iff, Prod.exists, Option.pure_def] at h
    obtain ⟨e', Γ₁, he, h⟩ := h
    obtain ⟨hF, hS⟩ := check_frame false e he
    split at h
    · simp only [Option.some.injEq, Prod.mk.injEq] at h
      obtain ⟨rfl, rfl⟩ := h
      exact ⟨hF, by simp [hS]⟩
    · simp only [Option.bind_eq_some_iff, Option.some.injEq, Prod.mk.injEq] at h
      obtain ⟨e'', hc, rfl, rfl⟩ := h
      exact ⟨hF, by simp [hS, tryCast_strip hc]⟩

theorem letsInit_strip {i i' : Option RExpr} (h : i'.map RExpr.strip = i.map RExpr.strip) : letsInit i' = letsInit i := by
  cases i <;> cases i' <;> simp only [Option.map_some, Option.map_none, Option.some.injEq, reduceCtorEq] at h
  · rfl
  · simp only [letsInit]
    rw [← lets_strip, h, lets_strip]

theorem checkAssign_eq {Γ : Ctx} {lhs : List Ident} {e e' : RExpr} (h : checkAssign Γ lhs e = some e') :
    e' = e ∨ ∃ t, tryCast t e = some e' := by
  unfold checkAssign at h
  simp only at h
  repeat' split at h
  all_goals first
    | cases h; done
    | (cases h; exact .inl rfl)
    | exact .inr ⟨_, h⟩

theorem checkAssign_len {L : Ident → Prop} {Γ : Ctx} {lhs : List Ident} {e e' : RExpr} (h : checkAssign Γ lhs e = some e')
    (hl : e'.LenOk L) : e.LenOk L := by
  rcases checkAssign_eq h with rfl | ⟨t, ht⟩
  · exact hl
  · exact tryCast_len ht hl

theorem checkAssign_strip {Γ : Ctx} {lhs : List Ident} {e e' : RExpr} (h : checkAssign Γ lhs e = some e') :
    e'.strip = e.strip := by
  rcases checkAssign_eq h with rfl | ⟨t, ht⟩
  · rfl
  · exact tryCast_strip ht

theorem checkCast_frame {t : Ty} {e e' : RExpr} {Γ Γ' : Ctx} (h : checkCast t e Γ = some (e', Γ')) :
    Frame e.lets Γ Γ' ∧ e'.strip = e.strip := by
  simp only [checkCast, Option.bind_eq_bind, Option.bind_eq_some_iff, Prod.exists, Option.pure_def, Option.some.injEq,
    Prod.mk.injEq] at h
  obtain ⟨e₁, Γ₁, he, e₂, hc, rfl, rfl⟩ := h
  obtain ⟨hF, hS⟩ := check_frame false e he
  exact ⟨hF, (tryCast_strip hc).trans hS⟩

mutual

theorem checkS_frame : ∀ (s : RStmt) {Γ Γ' : Ctx} {s' : RStmt}, checkS s Γ = some (s', Γ') →
    Frame s.lets Γ Γ' ∧ s'.strip = s.strip
  | .seq ss, Γ, Γ', s', h => by
    simp only [checkS, Option.bind_eq_bind, Option.bind_eq_some_iff, Prod.exists, Option.pure_def, Option.some.injEq,
      Prod.mk.injEq] at h
    obtain ⟨ss', Γ₁, hs, rfl, rfl⟩ := h
    obtain ⟨hF, hS⟩ := checkSL_frame ss hs
    exact ⟨hF, by simp only [RStmt.strip, hS]⟩
  | .var x t init, Γ, Γ', s', h => by
    simp only [checkS, Option.bind_eq_bind, Option.bind_eq_some_iff, Prod.exists, Option.pure_def, Option.some.injEq,
      Prod.mk.injEq] at h
    obtain ⟨i₁, Γ₁, h₁, i₂, Γ₂, h₂, rfl, rfl⟩ := h
    obtain ⟨hF₁, hS₁⟩ := checkVarDecl_frame h₁
    obtain ⟨hF₂, hS₂⟩ := checkVarDecl_frame h₂
    rw [letsInit_strip hS₁] at hF₂
    refine ⟨?_, by simp only [RStmt.strip, hS₂, hS₁]⟩
    have := hF₁.twice hF₂
    cases init <;> exact this
  | .assign lhs rhs, Γ, Γ', s', h => by
    simp only [checkS, Option.bind_eq_bind, Option.bind_eq_some_iff, Prod.exists, Option.pure_def, Option.some.injEq,
      Prod.mk.injEq] at h
    obtain ⟨e₁, Γ₁, h₁, e₂, h₂, rfl, rfl⟩ := h
    obtain ⟨hF, hS⟩ := check_frame false rhs h₁
    exact ⟨hF, by simp only [RStmt.strip, checkAssign_strip h₂, hS]⟩
  | .havoc d xs, Γ, Γ', s', h => by
    simp only [checkS] at h
    split at h
    · cases h; exact ⟨Frame.refl _, rfl⟩
    · cases h
  | .assert d e, Γ, Γ', s', h => by
    simp only [checkS, Option.bind_eq_bind, Option.bind_eq_some_iff, Prod.exists, Option.pure_def, Option.some.injEq,
      Prod.mk.injEq] at h
    obtain ⟨e₁, Γ₁, h₁, rfl, rfl⟩ := h
    obtain ⟨hF, hS⟩ := checkCast_frame h₁
    exact ⟨hF, by simp only [RStmt.strip, hS]⟩
  | .assume d e, Γ, Γ', s', h => by
    simp only [checkS, Option.bind_eq_bind, Option.bind_eq_some_iff, Prod.exists, Option.pure_def, Option.some.injEq,
      Prod.mk.injEq] at h
    obtain ⟨e₁, Γ₁, h₁, rfl, rfl⟩ := h
    obtain ⟨hF, hS⟩ := checkCast_frame h₁
    exact ⟨hF, by simp only [RStmt.strip, hS]⟩
  | .compare d e, Γ, Γ', s', h => by
    simp only [checkS, Option.bind_eq_bind, Option.bind_eq_some_iff, Prod.exists, Option.pure_def, Option.some.injEq,
      Prod.mk.injEq] at h
    obtain ⟨e₁, Γ₁, h₁, rfl, rfl⟩ := h
    obtain ⟨hF, hS⟩ := checkCast_frame h₁
    exact ⟨hF, by simp only [RStmt.strip, hS]⟩
  | .negate d, Γ, Γ', s', h => by
    simp only [checkS, Option.some.injEq, Prod.mk.injEq] at h
    obtain ⟨rfl, rfl⟩ := h
    exact ⟨Frame.refl _, rfl⟩
  | .validate d, Γ, Γ', s', h => by
    simp only [checkS, Option.some.injEq, Prod.mk.injEq] at h
    obtain ⟨rfl, rfl⟩ := h
    exact ⟨Frame.refl _, rfl⟩
  | .tick e, Γ, Γ', s', h => by
    simp only [checkS, Option.bind_eq_bind, Option.bind_eq_some_iff, Prod.exists, Option.pure_def, Option.some.injEq,
      Prod.mk.injEq] at h
    obtain ⟨e₁, Γ₁, h₁, rfl, rfl⟩ := h
    obtain ⟨hF, hS⟩ := checkCast_frame h₁
    exact ⟨hF, by simp only [RStmt.strip, hS]⟩
  | .weigh e, Γ, Γ', s', h => by
    simp only [checkS, Option.bind_eq_bind, Option.bind_eq_some_iff, Prod.exists, Option.pure_def, Option.some.injEq,
      Prod.mk.injEq] at h
    obtain ⟨e₁, Γ₁, h₁, rfl, rfl⟩ := h
    obtain ⟨hF, hS⟩ := checkCast_frame h₁
    exact ⟨hF, by simp only [RStmt.strip, hS]⟩
  | .demonic a b, Γ, Γ', s', h => by
    simp only [checkS, Option.bind_eq_bind, Option.bind_eq_some_iff, Prod.exists, Option.pure_def, Option.some.injEq,
      Prod.mk.injEq] at h
    obtain ⟨a', Γ₁, ha, b', Γ₂, hb, rfl, rfl⟩ := h
    obtain ⟨hF, hS⟩ := checkSL_frame a ha
    obtain ⟨hF₂, hS₂⟩ := checkSL_frame b hb
    exact ⟨hF.append hF₂, by simp only [RStmt.strip, hS, hS₂]⟩
  | .angelic a b, Γ, Γ', s', h => by
    simp only [checkS, Option.bind_eq_bind, Option.bind_eq_some_iff, Prod.exists, Option.pure_def, Option.some.injEq,
      Prod.mk.injEq] at h
    obtain ⟨a', Γ₁, ha, b', Γ₂, hb, rfl, rfl⟩ := h
    obtain ⟨hF, hS⟩ := checkSL_frame a ha
    obtain ⟨hF₂, hS₂⟩ := checkSL_frame b hb
    exact ⟨hF.append hF₂, by simp only [RStmt.strip, hS, hS₂]⟩
  | .additive a b, Γ, Γ', s', h => by
    simp only [checkS, Option.bind_eq_bind, Option.bind_eq_some_iff, Prod.exists, Option.pure_def, Option.some.injEq,
      Prod.mk.injEq] at h
    obtain ⟨a', Γ₁, ha, b', Γ₂, hb, rfl, rfl⟩ := h
    obtain ⟨hF, hS⟩ := checkSL_frame a ha
    obtain ⟨hF₂, hS₂⟩ := checkSL_frame b hb
    exact ⟨hF.append hF₂, by simp only [RStmt.strip, hS, hS₂]⟩
  | .ite c a b, Γ, Γ', s', h => by
    simp only [checkS, Option.bind_eq_bind, Option.bind_eq_some_iff, Prod.exists, Option.pure_def, Option.some.injEq,
      Prod.mk.injEq] at h
    obtain ⟨c', Γ₁, hc, a', Γ₂, ha, b', Γ₃, hb, c'', hcc, rfl, rfl⟩ := h
    obtain ⟨hF, hS⟩ := check_frame false c hc
    obtain ⟨hF₂, hS₂⟩ := checkSL_frame a ha
    obtain ⟨hF₃, hS₃⟩ := checkSL_frame b hb
    exact ⟨hF.append (hF₂.append hF₃), by simp only [RStmt.strip, tryCast_strip hcc, hS, hS₂, hS₃]⟩
  | .while c b, Γ, Γ', s', h => by
    simp only [checkS, Option.bind_eq_bind, Option.bind_eq_some_iff, Prod.exists, Option.pure_def, Option.some.injEq,
      Prod.mk.injEq] at h
    obtain ⟨c', Γ₁, hc, b', Γ₃, hb, c'', hcc, rfl, rfl⟩ := h
    obtain ⟨hF, hS⟩ := check_frame false c hc
    obtain ⟨hF₃, hS₃⟩ := checkSL_frame b hb
    exact ⟨hF.append hF₃, by simp only [RStmt.strip, tryCast_strip hcc, hS, hS₃]⟩
  | .annot f args s, Γ, Γ', s', h => by
    simp only [checkS, Option.bind_eq_bind, Option.bind_eq_some_iff, Prod.exists, Option.pure_def] at h
    obtain ⟨as, Γ₁, has, s₁, Γ₂, hs, h⟩ := h
    obtain ⟨hF, hS⟩ := checkL_frame false args has
    obtain ⟨hF₂, hS₂⟩ := checkS_frame s hs
    split at h
    · simp only [Option.bind_eq_some_iff, Option.some.injEq, Prod.mk.injEq] at h
      obtain ⟨as', has', rfl, rfl⟩ := h
      exact ⟨hF.append hF₂, by simp only [RStmt.strip, checkCall_strip has', hS, hS₂]⟩
    · simp only [Option.some.injEq, Prod.mk.injEq] at h
      obtain ⟨rfl, rfl⟩ := h
      exact ⟨hF.append hF₂, by simp only [RStmt.strip, hS, hS₂]⟩
  | .label l, Γ, Γ', s', h => by
    simp only [checkS, Option.some.injEq, Prod.mk.injEq] at h
    obtain ⟨rfl, rfl⟩ := h
    exact ⟨Frame.refl _, rfl⟩

theorem checkSL_frame : ∀ (ss : List RStmt) {Γ Γ' : Ctx} {ss' : List RStmt}, checkSL ss Γ = some (ss', Γ') →
    Frame (letsB ss) Γ Γ' ∧ stripB ss' = stripB ss
  | [], Γ, Γ', ss', h => by
    simp only [checkSL, Option.some.injEq, Prod.mk.injEq] at h
    obtain ⟨rfl, rfl⟩ := h
    exact ⟨Frame.refl _, rfl⟩
  | s :: ss, Γ, Γ', ss', h => by
    simp only [checkSL, Option.bind_eq_bind, Option.bind_eq_some_iff, Prod.exists, Option.pure_def, Option.some.injEq,
      Prod.mk.injEq] at h
    obtain ⟨s', Γ₁, hs, ss'', Γ₂, hss, rfl, rfl⟩ := h
    obtain ⟨hF, hS⟩ := checkS_frame s hs
    obtain ⟨hF₂, hS₂⟩ := checkSL_frame ss hss
    exact ⟨hF.append hF₂, by simp only [stripB, hS, hS₂]⟩

end

/-! ## Readings and larger declarations -/

theorem Assignable.ext {Γ Γ' : Ctx} (h : Ext Γ Γ') {x : Ident} {t : Ty} (ha : Assignable Γ x t) : Assignable Γ' x t :=
  ha.elim fun k hk => ⟨k, h.val hk.1, hk.2⟩

theorem ReadsArgs.ext {Γ Γ' : Ctx} (h : Ext Γ Γ') {args : List RExpr} {ts : List Ty} {as : List ((t : Ty) × Expr t)}
    (ha : ReadsArgs Γ args ts as) : ReadsArgs Γ' args ts as := ⟨ha.1, ha.2.imp fun _ _ h' => h'.ext h⟩

theorem ReadsDist.ext {Γ Γ' : Ctx} (h : Ext Γ Γ') {k : DistKind} {args : List RExpr} {t : Ty} {d : DistCall t}
    (hd : ReadsDist Γ k args t d) : ReadsDist Γ' k args t d := by
  cases hd with
  | ber pa pb => exact .ber pa pb
  | flip hp => exact .flip (hp.ext h)
  | unif a b => exact .unif a b
  | binom n pa pb => exact .binom n pa pb
  | hyper pN k pn => exact .hyper pN k pn

theorem ReadsAnn.ext {Γ Γ' : Ctx} (h : Ext Γ Γ') {k : AnnKind} {args : List RExpr} {an : Annot} (ha : ReadsAnn Γ k args an) :
    ReadsAnn Γ' k args an := by
  cases ha with
  | invariant h1 => exact .invariant (h1.ext h)
  | kInduction h1 => exact .kInduction (h1.ext h)
  | unroll h1 => exact .unroll (h1.ext h)
  | omegaInvariant hx h1 => exact .omegaInvariant (h.val hx) (h1.ext h)
  | past h1 h2 h3 => exact .past (h1.ext h) (h2.ext h) (h3.ext h)
  | ost h1 h2 h3 h4 => exact .ost (h1.ext h) (h2.ext h) (h3.ext h) (h4.ext h)
  | ast h1 h2 h3 h4 h5 => exact .ast (h1.ext h) (h2.ext h) (h.val h3) (h4.ext h) (h5.ext h)
  | slice => exact .slice

mutual

theorem ReadsS.ext {Γ Γ' : Ctx} (h : Ext Γ Γ') : ∀ {s : RStmt} {S : Stmt}, ReadsS Γ s S → ReadsS Γ' s S
  | _, _, .seq h1 => .seq (ReadsB.ext h h1)
  | _, _, .varDecl hx => .varDecl (hx.ext h)
  | _, _, .varInit hx h1 => .varInit (hx.ext h) (h1.ext h)
  | _, _, .varSample hx hf h1 => .varSample (hx.ext h) (h.decl (by simp) hf) (h1.ext h)
  | _, _, .varCall hx hf h1 => .varCall (hx.ext h) (h.decl (by simp) hf) (h1.ext h)
  | _, _, .assign hx h1 => .assign (hx.ext h) (h1.ext h)
  | _, _, .sample hx hf h1 => .sample (hx.ext h) (h.decl (by simp) hf) (h1.ext h)
  | _, _, .call hl ht hf h1 => .call (hl.imp fun _ _ h' => h'.ext h) ht (h.decl (by simp) hf) (h1.ext h)
  | _, _, .havoc h1 => .havoc fun x hx => (h1 x hx).ext h
  | _, _, .assert h1 => .assert (h1.ext h)
  | _, _, .assume h1 => .assume (h1.ext h)
  | _, _, .compare h1 => .compare (h1.ext h)
  | _, _, .negate => .negate
  | _, _, .validate => .validate
  | _, _, .tick h1 => .tick (h1.ext h)
  | _, _, .weigh h1 => .weigh (h1.ext h)
  | _, _, .demonic h1 h2 => .demonic (ReadsB.ext h h1) (ReadsB.ext h h2)
  | _, _, .angelic h1 h2 => .angelic (ReadsB.ext h h1) (ReadsB.ext h h2)
  | _, _, .additive h1 h2 => .additive (ReadsB.ext h h1) (ReadsB.ext h h2)
  | _, _, .ite h0 h1 h2 => .ite (h0.ext h) (ReadsB.ext h h1) (ReadsB.ext h h2)
  | _, _, .while h0 h1 => .while (h0.ext h) (ReadsB.ext h h1)
  | _, _, .annot hf ha h1 => .annot (h.decl (by simp) hf) (ha.ext h) (ReadsS.ext h h1)
  | _, _, .label => .label

theorem ReadsB.ext {Γ Γ' : Ctx} (h : Ext Γ Γ') : ∀ {ss : List RStmt} {S : Stmt}, ReadsB Γ ss S → ReadsB Γ' ss S
  | _, _, .nil => .nil
  | _, _, .cons h1 h2 => .cons (ReadsS.ext h h1) (ReadsB.ext h h2)

end

/-! ## Calls -/

theorem readsArgs_of {Γ : Ctx} {args : List RExpr} {ts : List Ty} (h : List.Forall₂ (Rd Γ) args ts) :
    ∃ as, ReadsArgs Γ args ts as := by
  induction h with
  | nil => exact ⟨[], rfl, .nil⟩
  | @cons a t args ts h1 _ ih =>
    obtain ⟨E, hE⟩ := h1
    obtain ⟨as, h2, h3⟩ := ih
    exact ⟨⟨t, E⟩ :: as, by simp [h2], .cons hE h3⟩

theorem lit_of_cast {Γ : Ctx} {a a' : RExpr} {s : Ty} (h : Rd Γ a s) (hl : a.isLit = true)
    (hc : tryCast (.val .uint) a = some a') : ∃ n, a' = uintLit n := by
  obtain ⟨s', hs, hc⟩ := tryCast_some hc
  rw [h.ty] at hs
  cases hs
  rcases hc with ⟨hc', rfl⟩ | ⟨hc', -⟩
  · have : Ty.uint = s := partialCmp_eq.1 hc'
    subst this
    obtain ⟨E, hE⟩ := h
    cases hE <;> first | (simp [RExpr.isLit] at hl; done) | skip
    rename_i hL
    cases hL
    exact ⟨_, rfl⟩
  · have := partialCmp_gt.1 hc'
    cases s <;> cases this

/-- Arguments that fit parameters. -/
def Fits (Γ : Ctx) (a : RExpr) (p : RParam) : Prop :=
  ∃ t, p.1 = RTy.val t ∧ Rd Γ a t ∧ (p.2 = true → t = .uint → ∃ n, a = uintLit n)

theorem checkArgs_fits {Γ : Ctx} : ∀ {ps : List RParam} {as as' : List RExpr}, as.length = ps.length →
    (∀ a ∈ as, ∃ t, Rd Γ a t) → checkArgs ps as = some as' → List.Forall₂ (Fits Γ) as' ps
  | [], [], as', _, _, h => by
    simp only [checkArgs, Option.some.injEq] at h
    subst h
    exact .nil
  | (t, l) :: ps, a :: as, as', hl, hr, h => by
    simp only [checkArgs, Option.bind_eq_bind] at h
    split at h
    · simp at h
    · rename_i hlit
      simp only [Option.bind_eq_some_iff, Option.pure_def, Option.some.injEq] at h
      obtain ⟨a', ha, as'', has, rfl⟩ := h
      obtain ⟨s, hs⟩ := hr a (.head _)
      obtain ⟨t', rfl, ht⟩ := tryCast_rd hs ha
      refine .cons ⟨t', rfl, ht, ?_⟩ (checkArgs_fits (by simpa using hl) (fun a h => hr a (.tail _ h)) has)
      rintro hll rfl
      simp only at hll
      subst hll
      exact lit_of_cast hs (by simpa using hlit) ha

theorem checkCall_fits {Γ : Ctx} {ps : List RParam} {as as' : List RExpr} (hr : ∀ a ∈ as, ∃ t, Rd Γ a t)
    (h : checkCall ps as = some as') : List.Forall₂ (Fits Γ) as' ps := by
  unfold checkCall at h
  split at h
  · cases h
  · rename_i hl
    exact checkArgs_fits (not_not.1 hl) hr h

theorem Fits.rd {Γ : Ctx} {a : RExpr} {t : Ty} {l : Bool} (h : Fits Γ a (.val t, l)) : Rd Γ a t := by
  obtain ⟨t', ht, h, -⟩ := h
  cases ht
  exact h

theorem Fits.lit {Γ : Ctx} {a : RExpr} (h : Fits Γ a (.val .uint, true)) : ∃ n, a = uintLit n := by
  obtain ⟨t', ht, h, hl⟩ := h
  cases ht
  exact hl rfl rfl

theorem dist_reads {Γ : Ctx} {k : DistKind} {args : List RExpr} (h : List.Forall₂ (Fits Γ) args k.params) :
    ∃ d, ReadsDist Γ k args k.out d := by
  cases k with
  | ber =>
    rcases h with _ | ⟨h1, _ | ⟨h2, _ | _⟩⟩
    obtain ⟨n, rfl⟩ := h1.lit
    obtain ⟨m, rfl⟩ := h2.lit
    exact ⟨_, .ber n m⟩
  | flip =>
    rcases h with _ | ⟨h1, _ | _⟩
    obtain ⟨E, hE⟩ := h1.rd
    exact ⟨_, .flip hE⟩
  | unif =>
    rcases h with _ | ⟨h1, _ | ⟨h2, _ | _⟩⟩
    obtain ⟨n, rfl⟩ := h1.lit
    obtain ⟨m, rfl⟩ := h2.lit
    exact ⟨_, .unif n m⟩
  | binom =>
    rcases h with _ | ⟨h1, _ | ⟨h2, _ | ⟨h3, _ | _⟩⟩⟩
    obtain ⟨n, rfl⟩ := h1.lit
    obtain ⟨m, rfl⟩ := h2.lit
    obtain ⟨o, rfl⟩ := h3.lit
    exact ⟨_, .binom n m o⟩
  | hyper =>
    rcases h with _ | ⟨h1, _ | ⟨h2, _ | ⟨h3, _ | _⟩⟩⟩
    obtain ⟨n, rfl⟩ := h1.lit
    obtain ⟨m, rfl⟩ := h2.lit
    obtain ⟨o, rfl⟩ := h3.lit
    exact ⟨_, .hyper n m o⟩

theorem dist_self {Γ : Ctx} {k : DistKind} {args : List RExpr} {t : Ty} {d : DistCall t} (h : ReadsDist Γ k args t d) :
    checkCall k.params args = some args := by
  apply checkCall_self
  have key : ∀ n, (∃ t, RTy.val .uint = RTy.val t ∧ (uintLit n).ty = some (.val t)) ∧ (true = true → (uintLit n).isLit = true) :=
    fun n => ⟨⟨_, rfl, rfl⟩, fun _ => rfl⟩
  cases h with
  | ber n m => exact .cons (key n) (.cons (key m) .nil)
  | flip hp => exact .cons ⟨⟨_, rfl, hp.ty⟩, fun h => by cases h⟩ .nil
  | unif n m => exact .cons (key n) (.cons (key m) .nil)
  | binom n m o => exact .cons (key n) (.cons (key m) (.cons (key o) .nil))
  | hyper n m o => exact .cons (key n) (.cons (key m) (.cons (key o) .nil))

/-- What the type checker makes of the right-hand side of an assignment. -/
inductive Rhs (Γ : Ctx) : RExpr → Prop where
  | pure {e t} (h : Rd Γ e t) : Rhs Γ e
  | proc {f args ins outs} (hf : Γ f = some (.proc ins outs)) (h : List.Forall₂ (Rd Γ) args ins) :
      Rhs Γ (.call (some (.tuple outs)) f args)
  | dist {f args k d} (hf : Γ f = some (.dist k)) (ha : ∀ a ∈ args, ∃ t, Rd Γ a t) (h : ReadsDist Γ k args k.out d) :
      Rhs Γ (.call (some (.tuple [k.out])) f args)

theorem check_rhs {Γ₀ : Ctx} : ∀ {e : RExpr} {bound : List Ident} {Γ Γ' : Ctx} {e' : RExpr},
    check false true e Γ = some (e', Γ') → Now Γ₀ Γ bound e.lets → e.InScope Γ₀ bound → e.Plain →
    e'.LenOk (fun f => Γ₀ f = some (.listOp .len)) → Rhs Γ' e' ∧ CtxOk Γ'
  | .call ty f args, bound, Γ, Γ', e', h, hn, hs, hp, hl => by
    have h₀ := h
    simp only [check, Option.bind_eq_bind, Option.bind_eq_some_iff, Prod.exists] at h
    obtain ⟨args', Γ₁, hL, d, hd, h⟩ := h
    have hn' := hn
    have hs' := hs
    have hp' := hp
    simp only [RExpr.lets] at hn
    simp only [RExpr.InScope] at hs
    simp only [RExpr.Plain] at hp
    split at h
    · simp at h
    cases d <;>
      simp only [Option.bind_eq_some_iff, Option.pure_def, Option.some.injEq, Prod.mk.injEq, Prod.exists, reduceCtorEq] at h
    case proc =>
      obtain ⟨as, has, e, he, rfl, rfl⟩ := h
      rw [finish_some he] at hl ⊢
      simp only [RExpr.setTy, RExpr.LenOk] at hl
      obtain ⟨hr, hc⟩ := checkL_rd false Γ₀ args hL hn hs hp (checkCall_len has hl.2)
      exact ⟨.proc hd (checkCall_plain hr has), hc⟩
    case dist k =>
      obtain ⟨as, has, e, he, rfl, rfl⟩ := h
      rw [finish_some he] at hl ⊢
      simp only [RExpr.setTy, RExpr.LenOk] at hl
      obtain ⟨hr, hc⟩ := checkL_rd false Γ₀ args hL hn hs hp (checkCall_len has hl.2)
      have hfit := checkCall_fits hr has
      obtain ⟨d, hd'⟩ := dist_reads hfit
      refine ⟨.dist hd ?_ hd', hc⟩
      intro a ha
      obtain ⟨i, hi, rfl⟩ := List.getElem_of_mem ha
      obtain ⟨t, -, h, -⟩ := hfit.get hi (hfit.length_eq ▸ hi)
      exact ⟨t, h⟩
    case func =>
      have : check false false (.call ty f args) Γ = some (e', Γ') := by
        obtain ⟨as, has, e, he, rfl, rfl⟩ := h
        simp [check, hL, hd, RDecl.isProc, has, he]
      obtain ⟨⟨t, h⟩, hc⟩ := check_rd false Γ₀ _ this hn' hs' hp' hl
      exact ⟨.pure h, hc⟩
    case listOp =>
      have : check false false (.call ty f args) Γ = some (e', Γ') := by
        obtain ⟨as, t, has, e, he, rfl, rfl⟩ := h
        simp [check, hL, hd, RDecl.isProc, has, he]
      obtain ⟨⟨t, h⟩, hc⟩ := check_rd false Γ₀ _ this hn' hs' hp' hl
      exact ⟨.pure h, hc⟩
  | .var _ _, _, _, _, _, h, hn, hs, hp, hl => by
    simp only [check] at h
    obtain ⟨⟨t, h⟩, hc⟩ := check_rd false Γ₀ (.var _ _) (by simp only [check]; exact h) hn hs hp hl
    exact ⟨.pure h, hc⟩
  | .ite _ _ _ _, _, _, _, _, h, hn, hs, hp, hl => by
    simp only [check] at h
    obtain ⟨⟨t, h⟩, hc⟩ := check_rd false Γ₀ (.ite _ _ _ _) (by simp only [check]; exact h) hn hs hp hl
    exact ⟨.pure h, hc⟩
  | .bin _ _ _ _, _, _, _, _, h, hn, hs, hp, hl => by
    simp only [check] at h
    obtain ⟨⟨t, h⟩, hc⟩ := check_rd false Γ₀ (.bin _ _ _ _) (by simp only [check]; exact h) hn hs hp hl
    exact ⟨.pure h, hc⟩
  | .un _ _ _, _, _, _, _, h, hn, hs, hp, hl => by
    simp only [check] at h
    obtain ⟨⟨t, h⟩, hc⟩ := check_rd false Γ₀ (.un _ _ _) (by simp only [check]; exact h) hn hs hp hl
    exact ⟨.pure h, hc⟩
  | .cast _ _, _, _, _, _, h, hn, hs, hp, hl => by
    simp only [check] at h
    obtain ⟨⟨t, h⟩, hc⟩ := check_rd false Γ₀ (.cast _ _) (by simp only [check]; exact h) hn hs hp hl
    exact ⟨.pure h, hc⟩
  | .quant _ _ _ _ _, _, _, _, _, h, hn, hs, hp, hl => by
    simp only [check] at h
    obtain ⟨⟨t, h⟩, hc⟩ := check_rd false Γ₀ (.quant _ _ _ _ _) (by simp only [check]; exact h) hn hs hp hl
    exact ⟨.pure h, hc⟩
  | .subst _ _ _ _, _, _, _, _, h, hn, hs, hp, hl => by
    simp only [check] at h
    obtain ⟨⟨t, h⟩, hc⟩ := check_rd false Γ₀ (.subst _ _ _ _) (by simp only [check]; exact h) hn hs hp hl
    exact ⟨.pure h, hc⟩
  | .lit _ _, _, _, _, _, h, hn, hs, hp, hl => by
    simp only [check] at h
    obtain ⟨⟨t, h⟩, hc⟩ := check_rd false Γ₀ (.lit _ _) (by simp only [check]; exact h) hn hs hp hl
    exact ⟨.pure h, hc⟩

theorem Rhs.self {Γ : Ctx} {e : RExpr} (h : Rhs Γ e) (hc : e.Caught false Γ) : check false true e Γ = some (e, Γ) := by
  cases h with
  | pure h => exact h.elim fun E hE => hE.check hc true
  | @proc f args ins outs hf h =>
    simp only [RExpr.Caught] at hc
    have hL : checkL false args Γ = some (args, Γ) := checkL_self fun e he => by
      obtain ⟨i, hi, rfl⟩ := List.getElem_of_mem he
      obtain ⟨E, hE⟩ := h.get hi (h.length_eq ▸ hi)
      exact hE.check (caughtL_mem hc _ he) false
    simp [check, hL, hf, checkCall_plain_self h, finish, ty_call]
  | @dist f args k d hf ha h =>
    simp only [RExpr.Caught] at hc
    have hL : checkL false args Γ = some (args, Γ) := checkL_self fun e he => by
      obtain ⟨t, E, hE⟩ := ha e he
      exact hE.check (caughtL_mem hc _ he) false
    simp [check, hL, hf, dist_self h, finish, ty_call]

theorem tryCast_tuple {t : Ty} {ts : List Ty} {e : RExpr} (h : e.ty = some (.tuple ts)) : tryCast (.val t) e = none := by
  simp [tryCast, h, RTy.partialCmp]

/-! ## The second visit of an initialiser -/

theorem finish_ty {t u : RTy} {e e' : RExpr} (h : finish t e = some e') (hu : e.ty = some u) : e'.ty = some u := by
  unfold finish at h
  rw [hu] at h
  simp only at h
  split at h
  · cases h
    exact hu
  · cases h

/-- Annotations are not changed. -/
theorem check_ty {pre imp : Bool} {u : RTy} : ∀ {e : RExpr} {Γ Γ' : Ctx} {e' : RExpr}, check pre imp e Γ = some (e', Γ') →
    e.ty = some u → e'.ty = some u
  | .var ty x, Γ, Γ', e', h, hu => by
    simp only [check] at h
    split at h
    · split at h
      · cases h
      · simp only [Option.bind_eq_bind, Option.bind_eq_some_iff, Option.pure_def, Option.some.injEq, Prod.mk.injEq] at h
        obtain ⟨e, he, rfl, rfl⟩ := h
        exact finish_ty he hu
    · cases h
  | .call ty f args, Γ, Γ', e', h, hu => by
    simp only [check, Option.bind_eq_bind, Option.bind_eq_some_iff, Prod.exists] at h
    obtain ⟨args', Γ₁, hL, d, hd, h⟩ := h
    split at h
    · simp at h
    cases d <;>
      simp only [Option.bind_eq_some_iff, Option.pure_def, Option.some.injEq, Prod.mk.injEq, Prod.exists, reduceCtorEq] at h
    case proc => obtain ⟨as, has, e, he, rfl, rfl⟩ := h; exact finish_ty he hu
    case func => obtain ⟨as, has, e, he, rfl, rfl⟩ := h; exact finish_ty he hu
    case dist => obtain ⟨as, has, e, he, rfl, rfl⟩ := h; exact finish_ty he hu
    case listOp => obtain ⟨as, t, has, e, he, rfl, rfl⟩ := h; exact finish_ty he hu
  | .ite ty c a b, Γ, Γ', e', h, hu => by
    simp only [check, Option.bind_eq_bind, Option.bind_eq_some_iff, Prod.exists, Option.pure_def, Option.some.injEq,
      Prod.mk.injEq] at h
    obtain ⟨c', Γ₁, hc, a', Γ₂, ha, b', Γ₃, hb, c'', hcc, t, a'', b'', hab, e, he, rfl, rfl⟩ := h
    exact finish_ty he hu
  | .bin ty op a b, Γ, Γ', e', h, hu => by
    simp only [check, Option.bind_eq_bind, Option.bind_eq_some_iff, Prod.exists, Option.pure_def, Option.some.injEq,
      Prod.mk.injEq] at h
    obtain ⟨a', Γ₂, ha, b', Γ₃, hb, t, a'', b'', hab, e, he, rfl, rfl⟩ := h
    exact finish_ty he hu
  | .un ty op a, Γ, Γ', e', h, hu => by
    simp only [check, Option.bind_eq_bind, Option.bind_eq_some_iff, Prod.exists, Option.pure_def, Option.some.injEq,
      Prod.mk.injEq] at h
    obtain ⟨a', Γ₂, ha, t, a'', hab, e, he, rfl, rfl⟩ := h
    exact finish_ty he hu
  | .cast ty a, Γ, Γ', e', h, hu => by
    simp only [check, Option.bind_eq_bind, Option.bind_eq_some_iff, Prod.exists, Option.pure_def, Option.some.injEq,
      Prod.mk.injEq] at h
    obtain ⟨a', Γ₂, ha, t, -, e, he, rfl, rfl⟩ := h
    exact finish_ty he hu
  | .quant ty op vs tr a, Γ, Γ', e', h, hu => by
    simp only [check, Option.bind_eq_bind, Option.bind_eq_some_iff, Prod.exists] at h
    obtain ⟨tr', Γ₁, ht, a', Γ₂, ha, -, -, h⟩ := h
    split at h
    · simp at h
    simp only [Option.bind_eq_some_iff, Option.pure_def, Option.some.injEq, Prod.mk.injEq] at h
    obtain ⟨e, he, rfl, rfl⟩ := h
    exact finish_ty he hu
  | .subst ty x v a, Γ, Γ', e', h, hu => by
    simp only [check, Option.bind_eq_bind, Option.bind_eq_some_iff, Prod.exists, Option.pure_def, Option.some.injEq,
      Prod.mk.injEq] at h
    obtain ⟨v', Γ₁, hv, Γ₂, hx, a', Γ₃, ha, t, -, e, he, rfl, rfl⟩ := h
    exact finish_ty he hu
  | .lit ty l, Γ, Γ', e', h, hu => by
    simp only [check, Option.bind_eq_bind, Option.bind_eq_some_iff, Option.pure_def, Option.some.injEq, Prod.mk.injEq] at h
    obtain ⟨e, he, rfl, rfl⟩ := h
    exact finish_ty he hu

theorem checkL_ty {pre : Bool} : ∀ {es es' : List RExpr} {Γ Γ' : Ctx}, checkL pre es Γ = some (es', Γ') →
    ∀ e ∈ es, ∀ u, e.ty = some u → ∃ e' ∈ es', e'.ty = some u
  | e :: es, es', Γ, Γ', h, x, hx, u, hu => by
    simp only [checkL, Option.bind_eq_bind, Option.bind_eq_some_iff, Prod.exists, Option.pure_def, Option.some.injEq,
      Prod.mk.injEq] at h
    obtain ⟨e', Γ₁, he, es'', Γ₂, hes, rfl, rfl⟩ := h
    rcases List.mem_cons.1 hx with rfl | hx
    · exact ⟨e', .head _, check_ty he hu⟩
    · obtain ⟨y, hy, h⟩ := checkL_ty hes x hx u hu
      exact ⟨y, .tail _ hy, h⟩

mutual

theorem check_back {L : Ident → Prop} {pre : Bool} : ∀ (e : RExpr) {imp : Bool} {Γ Γ' : Ctx} {e' : RExpr},
    check pre imp e Γ = some (e', Γ') → (∀ f, L f → Γ f = some (.listOp .len)) → e'.LenOk L → e.LenOk L
  | .var ty x, imp, Γ, Γ', e', h, hL, hl => by simp only [RExpr.LenOk]
  | .call ty f args, imp, Γ, Γ', e', h, hL, hl => by
    simp only [check, Option.bind_eq_bind, Option.bind_eq_some_iff, Prod.exists] at h
    obtain ⟨args', Γ₁, hA, d, hd, h⟩ := h
    have hlen : L f → d = .listOp .len := by
      intro hf
      rw [(checkL_frame pre args hA).1.1.decl (by simp) (hL f hf)] at hd
      cases hd
      rfl
    split at h
    · simp at h
    have key : ∀ {as : List RExpr}, LenOkL L as → (LenOkL L as → LenOkL L args') →
        (L f → as = args' ∧ ∀ a ∈ as, ∀ t, a.ty = some t → ∃ s, t = .val (.list s)) → (RExpr.call ty f args).LenOk L := by
      intro as h1 h2 h3
      simp only [RExpr.LenOk]
      refine ⟨fun hf a ha t ht => ?_, checkL_back args hA hL (h2 h1)⟩
      obtain ⟨rfl, h4⟩ := h3 hf
      obtain ⟨a', ha', ht'⟩ := checkL_ty hA a ha t ht
      exact h4 a' ha' t ht'
    cases d <;>
      simp only [Option.bind_eq_some_iff, Option.pure_def, Option.some.injEq, Prod.mk.injEq, Prod.exists, reduceCtorEq] at h
    case proc =>
      obtain ⟨as, has, e, he, rfl, rfl⟩ := h
      rw [finish_some he] at hl
      simp only [RExpr.setTy, RExpr.LenOk] at hl
      exact key hl.2 (checkCall_len has) fun hf => by cases hlen hf
    case func =>
      obtain ⟨as, has, e, he, rfl, rfl⟩ := h
      rw [finish_some he] at hl
      simp only [RExpr.setTy, RExpr.LenOk] at hl
      exact key hl.2 (checkCall_len has) fun hf => by cases hlen hf
    case dist =>
      obtain ⟨as, has, e, he, rfl, rfl⟩ := h
      rw [finish_some he] at hl
      simp only [RExpr.setTy, RExpr.LenOk] at hl
      exact key hl.2 (checkCall_len has) fun hf => by cases hlen hf
    case listOp k =>
      obtain ⟨as, t, has, e, he, rfl, rfl⟩ := h
      rw [finish_some he] at hl
      simp only [RExpr.setTy, RExpr.LenOk] at hl
      exact key hl.2 (checkListOp_len has) fun hf => by
        have := hlen hf
        simp only [RDecl.listOp.injEq] at this
        subst this
        exact ⟨checkListOp_arg has, hl.1 hf⟩
  | .ite ty c a b, imp, Γ, Γ', e', h, hL, hl => by
    simp only [check, Option.bind_eq_bind, Option.bind_eq_some_iff, Prod.exists, Option.pure_def, Option.some.injEq,
      Prod.mk.injEq] at h
    obtain ⟨c', Γ₁, hc, a', Γ₂, ha, b', Γ₃, hb, c'', hcc, t, a'', b'', hab, e, he, rfl, rfl⟩ := h
    rw [finish_some he] at hl
    simp only [RExpr.setTy, RExpr.LenOk] at hl ⊢
    obtain ⟨h1, h2⟩ := tryUnify_len hab hl.2.1 hl.2.2
    have hL₁ : ∀ f, L f → Γ₁ f = some (.listOp .len) := fun f hf => (check_frame pre c hc).1.1.decl (by simp) (hL f hf)
    have hL₂ : ∀ f, L f → Γ₂ f = some (.listOp .len) := fun f hf => (check_frame pre a ha).1.1.decl (by simp) (hL₁ f hf)
    exact ⟨check_back c hc hL (tryCast_len hcc hl.1), check_back a ha hL₁ h1, check_back b hb hL₂ h2⟩
  | .bin ty op a b, imp, Γ, Γ', e', h, hL, hl => by
    simp only [check, Option.bind_eq_bind, Option.bind_eq_some_iff, Prod.exists, Option.pure_def, Option.some.injEq,
      Prod.mk.injEq] at h
    obtain ⟨a', Γ₂, ha, b', Γ₃, hb, t, a'', b'', hab, e, he, rfl, rfl⟩ := h
    rw [finish_some he] at hl
    simp only [RExpr.setTy, RExpr.LenOk] at hl ⊢
    obtain ⟨h1, h2⟩ := checkBin_len hab hl.1 hl.2
    exact ⟨check_back a ha hL h1, check_back b hb (fun f hf => (check_frame pre a ha).1.1.decl (by simp) (hL f hf)) h2⟩
  | .un ty op a, imp, Γ, Γ', e', h, hL, hl => by
    simp only [check, Option.bind_eq_bind, Option.bind_eq_some_iff, Prod.exists, Option.pure_def, Option.some.injEq,
      Prod.mk.injEq] at h
    obtain ⟨a', Γ₂, ha, t, a'', hab, e, he, rfl, rfl⟩ := h
    rw [finish_some he] at hl
    simp only [RExpr.setTy, RExpr.LenOk] at hl ⊢
    exact check_back a ha hL (checkUn_len hab hl)
  | .cast ty a, imp, Γ, Γ', e', h, hL, hl => by
    simp only [check, Option.bind_eq_bind, Option.bind_eq_some_iff, Prod.exists, Option.pure_def, Option.some.injEq,
      Prod.mk.injEq] at h
    obtain ⟨a', Γ₂, ha, t, -, e, he, rfl, rfl⟩ := h
    rw [finish_some he] at hl
    simp only [RExpr.setTy, RExpr.LenOk] at hl ⊢
    exact check_back a ha hL hl
  | .quant ty op vs tr a, imp, Γ, Γ', e', h, hL, hl => by
    simp only [check, Option.bind_eq_bind, Option.bind_eq_some_iff, Prod.exists] at h
    obtain ⟨tr', Γ₁, ht, a', Γ₂, ha, -, -, h⟩ := h
    split at h
    · simp at h
    simp only [Option.bind_eq_some_iff, Option.pure_def, Option.some.injEq, Prod.mk.injEq] at h
    obtain ⟨e, he, rfl, rfl⟩ := h
    rw [finish_some he] at hl
    simp only [RExpr.setTy, RExpr.LenOk] at hl ⊢
    exact ⟨checkLL_back tr ht hL hl.1,
      check_back a ha (fun f hf => (checkLL_frame pre tr ht).1.1.decl (by simp) (hL f hf)) hl.2⟩
  | .subst ty x v a, imp, Γ, Γ', e', h, hL, hl => by
    simp only [check, Option.bind_eq_bind, Option.bind_eq_some_iff, Prod.exists, Option.pure_def, Option.some.injEq,
      Prod.mk.injEq] at h
    obtain ⟨v', Γ₁, hv, Γ₂, hx, a', Γ₃, ha, t, -, e, he, rfl, rfl⟩ := h
    rw [finish_some he] at hl
    simp only [RExpr.setTy, RExpr.LenOk] at hl ⊢
    exact ⟨check_back v hv hL hl.1, check_back a ha (fun f hf => (letTy_frame hx).1.decl (by simp)
      ((check_frame pre v hv).1.1.decl (by simp) (hL f hf))) hl.2⟩
  | .lit ty l, imp, Γ, Γ', e', h, hL, hl => by simp only [RExpr.LenOk]

theorem checkL_back {L : Ident → Prop} {pre : Bool} : ∀ (es : List RExpr) {Γ Γ' : Ctx} {es' : List RExpr},
    checkL pre es Γ = some (es', Γ') → (∀ f, L f → Γ f = some (.listOp .len)) → LenOkL L es' → LenOkL L es
  | [], Γ, Γ', es', h, hL, hl => by simp only [LenOkL]
  | e :: es, Γ, Γ', es', h, hL, hl => by
    simp only [checkL, Option.bind_eq_bind, Option.bind_eq_some_iff, Prod.exists, Option.pure_def, Option.some.injEq,
      Prod.mk.injEq] at h
    obtain ⟨e', Γ₁, he, es'', Γ₂, hes, rfl, rfl⟩ := h
    simp only [LenOkL] at hl ⊢
    exact ⟨check_back e he hL hl.1, checkL_back es hes (fun f hf => (check_frame pre e he).1.1.decl (by simp) (hL f hf)) hl.2⟩

theorem checkLL_back {L : Ident → Prop} {pre : Bool} : ∀ (es : List (List RExpr)) {Γ Γ' : Ctx} {es' : List (List RExpr)},
    checkLL pre es Γ = some (es', Γ') → (∀ f, L f → Γ f = some (.listOp .len)) → LenOkLL L es' → LenOkLL L es
  | [], Γ, Γ', es', h, hL, hl => by simp only [LenOkLL]
  | e :: es, Γ, Γ', es', h, hL, hl => by
    simp only [checkLL, Option.bind_eq_bind, Option.bind_eq_some_iff, Prod.exists, Option.pure_def, Option.some.injEq,
      Prod.mk.injEq] at h
    obtain ⟨e', Γ₁, he, es'', Γ₂, hes, rfl, rfl⟩ := h
    simp only [LenOkLL] at hl ⊢
    exact ⟨checkL_back e he hL hl.1, checkLL_back es hes (fun f hf => (checkL_frame pre e he).1.1.decl (by simp) (hL f hf)) hl.2⟩

end

/-! ## Statements -/

theorem Rhs.ext {Γ Γ' : Ctx} (h : Ext Γ Γ') {e : RExpr} (hr : Rhs Γ e) : Rhs Γ' e := by
  cases hr with
  | pure h' => exact .pure (h'.ext h)
  | proc hf h' => exact .proc (h.decl (by simp) hf) (h'.imp fun _ _ h' => h'.ext h)
  | dist hf ha h' => exact .dist (h.decl (by simp) hf) (fun a h' => (ha a h').imp fun _ h' => h'.ext h) (h'.ext h)

theorem tryCast_not_tuple {Γ : Ctx} {e e' : RExpr} {t : Ty} (h : Rhs Γ e) (hc : tryCast (.val t) e = some e') : Rd Γ e' t := by
  cases h with
  | pure h => exact tryCast_rd' h hc
  | proc => rw [tryCast_tuple (ty_call _ _ _)] at hc; cases hc
  | dist => rw [tryCast_tuple (ty_call _ _ _)] at hc; cases hc

theorem checkVarDecl_rd {Γ₀ : Ctx} {x : Ident} {t : Ty} {e : RExpr} {Γ Γ₁ Γ₂ : Ctx} {i₁ i₂ : Option RExpr}
    (h₁ : checkVarDecl t (some e) Γ = some (i₁, Γ₁)) (h₂ : checkVarDecl t i₁ Γ₁ = some (i₂, Γ₂)) (hn : Now Γ₀ Γ [] e.lets)
    (hx : Assignable Γ₀ x t) (hs : e.InScope Γ₀ []) (hp : e.Plain)
    (hl : (RStmt.var x t i₂).LenOk (fun f => Γ₀ f = some (.listOp .len))) :
    (∃ S, ReadsS Γ₂ (.var x t i₂) S) ∧ CtxOk Γ₂ := by
  simp only [checkVarDecl, Option.bind_eq_bind, Option.bind_eq_some_iff, Prod.exists, Option.pure_def] at h₁
  obtain ⟨e', Γ', he, h₁⟩ := h₁
  have hcaught := check_caught false e he
  have hext : Ext Γ₀ Γ' := hn.ext.trans (check_frame false e he).1.1
  have hlen : ∀ f, Γ₀ f = some (.listOp .len) → Γ' f = some (.listOp .len) := fun f hf => hext.decl (by simp) hf
  have hx' := hx.ext hext
  split at h₁
  · rename_i ht
    simp only [Option.some.injEq, Prod.mk.injEq] at h₁
    obtain ⟨rfl, rfl⟩ := h₁
    simp only [checkVarDecl, Option.bind_eq_bind, Option.bind_eq_some_iff, Prod.exists, Option.pure_def] at h₂
    obtain ⟨e'', Γ'', he', h₂⟩ := h₂
    rw [if_pos (check_ty he' ht)] at h₂
    simp only [Option.some.injEq, Prod.mk.injEq] at h₂
    obtain ⟨rfl, rfl⟩ := h₂
    simp only [RStmt.LenOk] at hl
    obtain ⟨hR, hC⟩ := check_rhs he hn hs hp (check_back e' he' hlen hl)
    rw [hR.self hcaught] at he'
    simp only [Option.some.injEq, Prod.mk.injEq] at he'
    obtain ⟨rfl, rfl⟩ := he'
    refine ⟨?_, hC⟩
    cases hR with
    | pure h => rw [h.ty] at ht; cases ht
    | proc hf h =>
      cases ht
      obtain ⟨as, has⟩ := readsArgs_of h
      exact ⟨_, .varCall hx' hf has⟩
    | dist hf ha h =>
      cases ht
      exact ⟨_, .varSample hx' hf h⟩
  · simp only [Option.bind_eq_some_iff, Option.some.injEq, Prod.mk.injEq] at h₁
    obtain ⟨c, hcast, rfl, rfl⟩ := h₁
    simp only [checkVarDecl, Option.bind_eq_bind, Option.bind_eq_some_iff, Prod.exists, Option.pure_def] at h₂
    obtain ⟨e'', Γ'', he', h₂⟩ := h₂
    have hi : ∃ d, i₂ = some d ∧ Γ'' = Γ₂ ∧ (d = e'' ∨ tryCast (.val t) e'' = some d) := by
      split at h₂
      · simp only [Option.some.injEq, Prod.mk.injEq] at h₂
        exact ⟨_, h₂.1.symm, h₂.2, .inl rfl⟩
      · simp only [Option.bind_eq_some_iff, Option.some.injEq, Prod.mk.injEq] at h₂
        obtain ⟨d, hd, rfl, rfl⟩ := h₂
        exact ⟨d, rfl, rfl, .inr hd⟩
    obtain ⟨d, rfl, rfl, hd⟩ := hi
    simp only [RStmt.LenOk] at hl
    have hl' : e''.LenOk (fun f => Γ₀ f = some (.listOp .len)) := by
      rcases hd with rfl | hd
      · exact hl
      · exact tryCast_len hd hl
    obtain ⟨hR, hC⟩ := check_rhs he hn hs hp (tryCast_len hcast (check_back c he' hlen hl'))
    have hrd := tryCast_not_tuple hR hcast
    rw [Rhs.self (.pure hrd) (tryCast_caught hcast hcaught)] at he'
    simp only [Option.some.injEq, Prod.mk.injEq] at he'
    obtain ⟨rfl, rfl⟩ := he'
    have : d = c := by
      rcases hd with rfl | hd
      · rfl
      · rw [tryCast_self hrd.ty] at hd
        exact (Option.some.inj hd).symm
    subst this
    obtain ⟨E, hE⟩ := hrd
    exact ⟨⟨_, .varInit hx' hE⟩, hC⟩

theorem assignTuple_vars {Γ : Ctx} : ∀ {xs : List Ident} {ts : List Ty}, assignTuple Γ xs ts = true →
    ∃ vs : List Var, xs = vs.map Var.id ∧ vs.map Var.ty = ts ∧ List.Forall₂ (Assignable Γ) xs ts
  | [], [], _ => ⟨[], rfl, rfl, .nil⟩
  | [], _ :: _, h => by simp [assignTuple] at h
  | _ :: _, [], h => by simp [assignTuple] at h
  | x :: xs, t :: ts, h => by
    simp only [assignTuple] at h
    split at h
    · rename_i t' k hk
      simp only [Bool.and_eq_true, decide_eq_true_eq] at h
      obtain ⟨⟨hm, rfl⟩, h⟩ := h
      obtain ⟨vs, rfl, rfl, hf⟩ := assignTuple_vars h
      refine ⟨⟨x, t⟩ :: vs, rfl, rfl, .cons ⟨k, hk, ?_⟩ hf⟩
      cases k <;> simp [VarKind.isMutable] at hm ⊢
    · cases h

theorem checkAssign_rd {Γ : Ctx} {lhs : List Ident} {e e' : RExpr} (hΓ : CtxOk Γ) (hr : Rhs Γ e)
    (h : checkAssign Γ lhs e = some e') : ∃ S, ReadsS Γ (.assign lhs e') S := by
  unfold checkAssign at h
  have hsingle : (∃ x t k, lhs = [x] ∧ Γ x = some (.var t k) ∧ k.isMutable = true ∧ tryCast t e = some e') →
      ∃ S, ReadsS Γ (.assign lhs e') S := by
    rintro ⟨x, t, k, rfl, hx, hm, hc⟩
    rcases hΓ x t k hx with ⟨rfl, rfl⟩ | ⟨s, rfl⟩
    · cases hm
    · obtain ⟨E, hE⟩ := tryCast_not_tuple hr hc
      exact ⟨_, .assign ⟨k, hx, by cases k <;> simp [VarKind.isMutable] at hm ⊢⟩ hE⟩
  have htuple : ∀ ts, e.ty = some (.tuple ts) → assignTuple Γ lhs ts = true → ∃ S, ReadsS Γ (.assign lhs e) S := by
    intro ts ht ha
    obtain ⟨vs, rfl, h2, h3⟩ := assignTuple_vars ha
    cases hr with
    | pure hr => rw [hr.ty] at ht; cases ht
    | proc hf hr =>
      cases ht
      obtain ⟨as, has⟩ := readsArgs_of hr
      exact ⟨_, .call h3 h2 hf has⟩
    | @dist f args k d hf ha hr =>
      cases ht
      cases vs with
      | nil => cases h2
      | cons v vs =>
        simp only [List.map_cons, List.cons.injEq, List.map_eq_nil_iff] at h2
        obtain ⟨h2, rfl⟩ := h2
        rcases h3 with _ | ⟨h3, -⟩
        exact ⟨_, .sample h3 hf hr⟩
  simp only at h
  split at h
  · rename_i ts ht
    split at h
    · rename_i ha
      cases h
      exact htuple ts ht ha
    · split at h
      · cases h
      · refine hsingle ?_
        split at h
        · split at h
          · split at h
            · exact ⟨_, _, _, rfl, ‹_›, ‹_›, h⟩
            · cases h
          · cases h
        · cases h
  · refine hsingle ?_
    split at h
    · split at h
      · split at h
        · exact ⟨_, _, _, rfl, ‹_›, ‹_›, h⟩
        · cases h
      · cases h
    · cases h
  · cases h

theorem havocOk_rd {Γ : Ctx} {xs : List Ident} (hΓ : CtxOk Γ) (h : havocOk Γ xs = true) :
    ∃ vs : List Var, xs = vs.map Var.id ∧ ∀ v ∈ vs, Assignable Γ v.id v.ty := by
  induction xs with
  | nil => exact ⟨[], rfl, by simp⟩
  | cons x xs ih =>
    simp only [havocOk, List.all_cons, Bool.and_eq_true] at h
    obtain ⟨vs, rfl, hv⟩ := ih h.2
    have h1 := h.1
    split at h1
    · rename_i t k hk
      rcases hΓ x t k hk with ⟨rfl, rfl⟩ | ⟨s, rfl⟩
      · cases h1
      · refine ⟨⟨x, s⟩ :: vs, rfl, ?_⟩
        intro v hv'
        rcases List.mem_cons.1 hv' with rfl | hv'
        · exact ⟨k, hk, by cases k <;> simp [VarKind.isMutable] at h1 ⊢⟩
        · exact hv v hv'
    · cases h1

theorem checkCast_rd {Γ₀ : Ctx} {t : Ty} {e e' : RExpr} {Γ Γ' : Ctx} (h : checkCast t e Γ = some (e', Γ'))
    (hn : Now Γ₀ Γ [] e.lets) (hs : e.InScope Γ₀ []) (hp : e.Plain)
    (hl : e'.LenOk (fun f => Γ₀ f = some (.listOp .len))) : Rd Γ' e' t ∧ CtxOk Γ' := by
  simp only [checkCast, Option.bind_eq_bind, Option.bind_eq_some_iff, Prod.exists, Option.pure_def, Option.some.injEq,
    Prod.mk.injEq] at h
  obtain ⟨e₁, Γ₁, he, e₂, hc, rfl, rfl⟩ := h
  obtain ⟨⟨s, hr⟩, hC⟩ := check_rd false Γ₀ e he hn hs hp (tryCast_len hc hl)
  exact ⟨tryCast_rd' hr hc, hC⟩

/-! ### Annotations -/

theorem reads_var {Γ : Ctx} {e : RExpr} {t : Ty} {E : Expr t} (h : Reads Γ e t E) {x : Ident} (hx : e.strip = .var none x) :
    ∃ s k, Γ x = some (.var (.val s) k) ∧ ((s = t ∧ e = .var (some (.val s)) x) ∨ s.less t = true) := by
  induction h <;> simp only [RExpr.strip, RExpr.var.injEq, true_and, reduceCtorEq] at hx
  case var h => subst hx; exact ⟨_, _, h, .inl ⟨rfl, rfl⟩⟩
  case cast c ha ih =>
    obtain ⟨s, k, hk, ⟨rfl, rfl⟩ | hl⟩ := ih hx
    · refine ⟨s, k, hk, .inr ?_⟩
      cases c <;> rfl
    · refine ⟨s, k, hk, .inr ?_⟩
      cases c <;> cases s <;> first | rfl | cases hl

theorem rd_var {Γ : Ctx} {e : RExpr} {t : Ty} {x : Ident} {k : VarKind} (h : Rd Γ e t) (hx : e.strip = .var none x)
    (hk : Γ x = some (.var (.val t) k)) : e = .var (some (.val t)) x := by
  obtain ⟨E, hE⟩ := h
  obtain ⟨s, k', hk', ⟨-, rfl⟩ | hl⟩ := reads_var hE hx
  · rw [hk] at hk'
    cases hk'
    rfl
  · rw [hk] at hk'
    cases hk'
    cases t <;> cases hl

theorem ann_reads {Γ₀ Γ : Ctx} (hx : Ext Γ₀ Γ) {k : AnnKind} {args₀ args : List RExpr} (hs : AnnShape Γ₀ k args₀)
    (he : stripL args = stripL args₀) (h : List.Forall₂ (Fits Γ) args k.params) : ∃ An, ReadsAnn Γ k args An := by
  cases k with
  | invariant =>
    rcases h with _ | ⟨h1, _ | _⟩
    obtain ⟨E, hE⟩ := h1.rd
    exact ⟨_, .invariant hE⟩
  | kInduction =>
    rcases h with _ | ⟨h1, _ | ⟨h2, _ | _⟩⟩
    obtain ⟨n, rfl⟩ := h1.lit
    obtain ⟨E, hE⟩ := h2.rd
    exact ⟨_, .kInduction hE⟩
  | unroll =>
    rcases h with _ | ⟨h1, _ | ⟨h2, _ | _⟩⟩
    obtain ⟨n, rfl⟩ := h1.lit
    obtain ⟨E, hE⟩ := h2.rd
    exact ⟨_, .unroll hE⟩
  | omegaInvariant =>
    rcases h with _ | ⟨h1, _ | ⟨h2, _ | _⟩⟩
    obtain ⟨ty, x, as, rfl, kx, hk, -⟩ := hs
    simp only [stripL, RExpr.strip, List.cons.injEq] at he
    obtain ⟨E, hE⟩ := h2.rd
    rw [rd_var h1.rd he.1 (hx.val hk)]
    exact ⟨_, .omegaInvariant (hx.val hk) hE⟩
  | past =>
    rcases h with _ | ⟨h1, _ | ⟨h2, _ | ⟨h3, _ | _⟩⟩⟩
    obtain ⟨E, hE⟩ := h1.rd
    obtain ⟨P, hP⟩ := h2.rd
    obtain ⟨K, hK⟩ := h3.rd
    exact ⟨_, .past hE hP hK⟩
  | ost =>
    rcases h with _ | ⟨h1, _ | ⟨h2, _ | ⟨h3, _ | ⟨h4, _ | _⟩⟩⟩⟩
    obtain ⟨E, hE⟩ := h1.rd
    obtain ⟨P, hP⟩ := h2.rd
    obtain ⟨C, hC⟩ := h3.rd
    obtain ⟨Q, hQ⟩ := h4.rd
    exact ⟨_, .ost hE hP hC hQ⟩
  | ast =>
    rcases h with _ | ⟨h1, _ | ⟨h2, _ | ⟨h3, _ | ⟨h4, _ | ⟨h5, _ | _⟩⟩⟩⟩⟩
    obtain ⟨i, v, ty, x, as, rfl, kx, hk, -⟩ := hs
    simp only [stripL, RExpr.strip, List.cons.injEq] at he
    obtain ⟨I, hI⟩ := h1.rd
    obtain ⟨V, hV⟩ := h2.rd
    obtain ⟨P, hP⟩ := h4.rd
    obtain ⟨D, hD⟩ := h5.rd
    rw [rd_var h3.rd he.2.2.1 (hx.val hk)]
    exact ⟨_, .ast hI hV (hx.val hk) hP hD⟩
  | slice k m => exact ⟨_, .slice⟩

theorem ann_string {k : AnnKind} {ty : Option RTy} {m : String} {args : List RExpr} (hty : ty = some .string)
    (h : checkCall k.params [.lit ty (.str m)] = some args) : ∃ n b, k = .slice n b := by
  subst hty
  cases k with
  | slice n b => exact ⟨n, b, rfl⟩
  | _ => simp [AnnKind.params, checkCall, checkArgs, tryCast, RExpr.ty, RTy.partialCmp, RExpr.isLit] at h

mutual

theorem checkS_rd (Γ₀ : Ctx) : ∀ (s : RStmt) {Γ Γ' : Ctx} {s' : RStmt}, checkS s Γ = some (s', Γ') → Now Γ₀ Γ [] s.lets →
    s.InScope Γ₀ → s.Plain → s'.LenOk (fun f => Γ₀ f = some (.listOp .len)) → (∃ S, ReadsS Γ' s' S) ∧ CtxOk Γ'
  | .seq ss, Γ, Γ', s', h, hn, hs, hp, hl => by
    simp only [checkS, Option.bind_eq_bind, Option.bind_eq_some_iff, Prod.exists, Option.pure_def, Option.some.injEq,
      Prod.mk.injEq] at h
    obtain ⟨ss', Γ₁, hss, rfl, rfl⟩ := h
    simp only [RStmt.lets] at hn
    simp only [RStmt.InScope] at hs
    simp only [RStmt.Plain] at hp
    simp only [RStmt.LenOk] at hl
    obtain ⟨⟨S, hS⟩, hC⟩ := checkSL_rd Γ₀ ss hss hn hs hp hl
    exact ⟨⟨_, .seq hS⟩, hC⟩
  | .var x t none, Γ, Γ', s', h, hn, hs, hp, hl => by
    simp only [checkS, checkVarDecl, Option.bind_eq_bind, Option.bind_some, Option.pure_def, Option.some.injEq,
      Prod.mk.injEq] at h
    obtain ⟨rfl, rfl⟩ := h
    simp only [RStmt.InScope] at hs
    exact ⟨⟨_, .varDecl (hs.ext hn.ext)⟩, hn.ctx⟩
  | .var x t (some e), Γ, Γ', s', h, hn, hs, hp, hl => by
    simp only [checkS, Option.bind_eq_bind, Option.bind_eq_some_iff, Prod.exists, Option.pure_def, Option.some.injEq,
      Prod.mk.injEq] at h
    obtain ⟨i₁, Γ₁, h₁, i₂, Γ₂, h₂, rfl, rfl⟩ := h
    simp only [RStmt.lets] at hn
    simp only [RStmt.InScope] at hs
    simp only [RStmt.Plain] at hp
    exact checkVarDecl_rd h₁ h₂ hn hs.1 hs.2 hp hl
  | .assign lhs rhs, Γ, Γ', s', h, hn, hs, hp, hl => by
    simp only [checkS, Option.bind_eq_bind, Option.bind_eq_some_iff, Prod.exists, Option.pure_def, Option.some.injEq,
      Prod.mk.injEq] at h
    obtain ⟨e₁, Γ₁, h₁, e₂, h₂, rfl, rfl⟩ := h
    simp only [RStmt.lets] at hn
    simp only [RStmt.InScope] at hs
    simp only [RStmt.Plain] at hp
    simp only [RStmt.LenOk] at hl
    obtain ⟨hR, hC⟩ := check_rhs h₁ hn hs hp (checkAssign_len h₂ hl)
    exact ⟨checkAssign_rd hC hR h₂, hC⟩
  | .havoc d xs, Γ, Γ', s', h, hn, hs, hp, hl => by
    simp only [checkS] at h
    split at h
    · rename_i hok
      cases h
      obtain ⟨vs, rfl, hv⟩ := havocOk_rd hn.ctx hok
      exact ⟨⟨_, .havoc hv⟩, hn.ctx⟩
    · cases h
  | .assert d e, Γ, Γ', s', h, hn, hs, hp, hl => by
    simp only [checkS, Option.bind_eq_bind, Option.bind_eq_some_iff, Prod.exists, Option.pure_def, Option.some.injEq,
      Prod.mk.injEq] at h
    obtain ⟨e₁, Γ₁, h₁, rfl, rfl⟩ := h
    simp only [RStmt.lets] at hn
    simp only [RStmt.InScope] at hs
    simp only [RStmt.Plain] at hp
    simp only [RStmt.LenOk] at hl
    obtain ⟨⟨E, hE⟩, hC⟩ := checkCast_rd h₁ hn hs hp hl
    exact ⟨⟨_, .assert hE⟩, hC⟩
  | .assume d e, Γ, Γ', s', h, hn, hs, hp, hl => by
    simp only [checkS, Option.bind_eq_bind, Option.bind_eq_some_iff, Prod.exists, Option.pure_def, Option.some.injEq,
      Prod.mk.injEq] at h
    obtain ⟨e₁, Γ₁, h₁, rfl, rfl⟩ := h
    simp only [RStmt.lets] at hn
    simp only [RStmt.InScope] at hs
    simp only [RStmt.Plain] at hp
    simp only [RStmt.LenOk] at hl
    obtain ⟨⟨E, hE⟩, hC⟩ := checkCast_rd h₁ hn hs hp hl
    exact ⟨⟨_, .assume hE⟩, hC⟩
  | .compare d e, Γ, Γ', s', h, hn, hs, hp, hl => by
    simp only [checkS, Option.bind_eq_bind, Option.bind_eq_some_iff, Prod.exists, Option.pure_def, Option.some.injEq,
      Prod.mk.injEq] at h
    obtain ⟨e₁, Γ₁, h₁, rfl, rfl⟩ := h
    simp only [RStmt.lets] at hn
    simp only [RStmt.InScope] at hs
    simp only [RStmt.Plain] at hp
    simp only [RStmt.LenOk] at hl
    obtain ⟨⟨E, hE⟩, hC⟩ := checkCast_rd h₁ hn hs hp hl
    exact ⟨⟨_, .compare hE⟩, hC⟩
  | .negate d, Γ, Γ', s', h, hn, hs, hp, hl => by
    simp only [checkS, Option.some.injEq, Prod.mk.injEq] at h
    obtain ⟨rfl, rfl⟩ := h
    exact ⟨⟨_, .negate⟩, hn.ctx⟩
  | .validate d, Γ, Γ', s', h, hn, hs, hp, hl => by
    simp only [checkS, Option.some.injEq, Prod.mk.injEq] at h
    obtain ⟨rfl, rfl⟩ := h
    exact ⟨⟨_, .validate⟩, hn.ctx⟩
  | .tick e, Γ, Γ', s', h, hn, hs, hp, hl => by
    simp only [checkS, Option.bind_eq_bind, Option.bind_eq_some_iff, Prod.exists, Option.pure_def, Option.some.injEq,
      Prod.mk.injEq] at h
    obtain ⟨e₁, Γ₁, h₁, rfl, rfl⟩ := h
    simp only [RStmt.lets] at hn
    simp only [RStmt.InScope] at hs
    simp only [RStmt.Plain] at hp
    simp only [RStmt.LenOk] at hl
    obtain ⟨⟨E, hE⟩, hC⟩ := checkCast_rd h₁ hn hs hp hl
    exact ⟨⟨_, .tick hE⟩, hC⟩
  | .weigh e, Γ, Γ', s', h, hn, hs, hp, hl => by
    simp only [checkS, Option.bind_eq_bind, Option.bind_eq_some_iff, Prod.exists, Option.pure_def, Option.some.injEq,
      Prod.mk.injEq] at h
    obtain ⟨e₁, Γ₁, h₁, rfl, rfl⟩ := h
    simp only [RStmt.lets] at hn
    simp only [RStmt.InScope] at hs
    simp only [RStmt.Plain] at hp
    simp only [RStmt.LenOk] at hl
    obtain ⟨⟨E, hE⟩, hC⟩ := checkCast_rd h₁ hn hs hp hl
    exact ⟨⟨_, .weigh hE⟩, hC⟩
  | .demonic a b, Γ, Γ', s', h, hn, hs, hp, hl => by
    simp only [checkS, Option.bind_eq_bind, Option.bind_eq_some_iff, Prod.exists, Option.pure_def, Option.some.injEq,
      Prod.mk.injEq] at h
    obtain ⟨a', Γ₁, ha, b', Γ₂, hb, rfl, rfl⟩ := h
    simp only [RStmt.lets] at hn
    simp only [RStmt.InScope] at hs
    simp only [RStmt.Plain] at hp
    simp only [RStmt.LenOk] at hl
    obtain ⟨⟨A, hA⟩, hC⟩ := checkSL_rd Γ₀ a ha hn.left hs.1 hp.1 hl.1
    have hF := (checkSL_frame a ha).1
    obtain ⟨⟨B, hB⟩, hC₂⟩ := checkSL_rd Γ₀ b hb (hn.right hF hC) hs.2 hp.2 hl.2
    exact ⟨⟨_, .demonic (hA.ext (checkSL_frame b hb).1.1) hB⟩, hC₂⟩
  | .angelic a b, Γ, Γ', s', h, hn, hs, hp, hl => by
    simp only [checkS, Option.bind_eq_bind, Option.bind_eq_some_iff, Prod.exists, Option.pure_def, Option.some.injEq,
      Prod.mk.injEq] at h
    obtain ⟨a', Γ₁, ha, b', Γ₂, hb, rfl, rfl⟩ := h
    simp only [RStmt.lets] at hn
    simp only [RStmt.InScope] at hs
    simp only [RStmt.Plain] at hp
    simp only [RStmt.LenOk] at hl
    obtain ⟨⟨A, hA⟩, hC⟩ := checkSL_rd Γ₀ a ha hn.left hs.1 hp.1 hl.1
    have hF := (checkSL_frame a ha).1
    obtain ⟨⟨B, hB⟩, hC₂⟩ := checkSL_rd Γ₀ b hb (hn.right hF hC) hs.2 hp.2 hl.2
    exact ⟨⟨_, .angelic (hA.ext (checkSL_frame b hb).1.1) hB⟩, hC₂⟩
  | .additive a b, Γ, Γ', s', h, hn, hs, hp, hl => by
    simp only [checkS, Option.bind_eq_bind, Option.bind_eq_some_iff, Prod.exists, Option.pure_def, Option.some.injEq,
      Prod.mk.injEq] at h
    obtain ⟨a', Γ₁, ha, b', Γ₂, hb, rfl, rfl⟩ := h
    simp only [RStmt.lets] at hn
    simp only [RStmt.InScope] at hs
    simp only [RStmt.Plain] at hp
    simp only [RStmt.LenOk] at hl
    obtain ⟨⟨A, hA⟩, hC⟩ := checkSL_rd Γ₀ a ha hn.left hs.1 hp.1 hl.1
    have hF := (checkSL_frame a ha).1
    obtain ⟨⟨B, hB⟩, hC₂⟩ := checkSL_rd Γ₀ b hb (hn.right hF hC) hs.2 hp.2 hl.2
    exact ⟨⟨_, .additive (hA.ext (checkSL_frame b hb).1.1) hB⟩, hC₂⟩
  | .ite c a b, Γ, Γ', s', h, hn, hs, hp, hl => by
    simp only [checkS, Option.bind_eq_bind, Option.bind_eq_some_iff, Prod.exists, Option.pure_def, Option.some.injEq,
      Prod.mk.injEq] at h
    obtain ⟨c', Γ₁, hc, a', Γ₂, ha, b', Γ₃, hb, c'', hcc, rfl, rfl⟩ := h
    simp only [RStmt.lets] at hn
    simp only [RStmt.InScope] at hs
    simp only [RStmt.Plain] at hp
    simp only [RStmt.LenOk] at hl
    obtain ⟨⟨t, hr⟩, hC⟩ := check_rd false Γ₀ c hc hn.left hs.1 hp.1 (tryCast_len hcc hl.1)
    have hn' := hn.right (check_frame false c hc).1 hC
    obtain ⟨⟨A, hA⟩, hC₂⟩ := checkSL_rd Γ₀ a ha hn'.left hs.2.1 hp.2.1 hl.2.1
    obtain ⟨⟨B, hB⟩, hC₃⟩ := checkSL_rd Γ₀ b hb (hn'.right (checkSL_frame a ha).1 hC₂) hs.2.2 hp.2.2 hl.2.2
    have hb' := (checkSL_frame b hb).1.1
    obtain ⟨C, hC'⟩ := tryCast_rd' (hr.ext ((checkSL_frame a ha).1.1.trans hb')) hcc
    exact ⟨⟨_, .ite hC' (hA.ext hb') hB⟩, hC₃⟩
  | .while c b, Γ, Γ', s', h, hn, hs, hp, hl => by
    simp only [checkS, Option.bind_eq_bind, Option.bind_eq_some_iff, Prod.exists, Option.pure_def, Option.some.injEq,
      Prod.mk.injEq] at h
    obtain ⟨c', Γ₁, hc, b', Γ₃, hb, c'', hcc, rfl, rfl⟩ := h
    simp only [RStmt.lets] at hn
    simp only [RStmt.InScope] at hs
    simp only [RStmt.Plain] at hp
    simp only [RStmt.LenOk] at hl
    obtain ⟨⟨t, hr⟩, hC⟩ := check_rd false Γ₀ c hc hn.left hs.1 hp.1 (tryCast_len hcc hl.1)
    have hn' := hn.right (check_frame false c hc).1 hC
    obtain ⟨⟨B, hB⟩, hC₃⟩ := checkSL_rd Γ₀ b hb hn' hs.2 hp.2 hl.2
    obtain ⟨C, hC'⟩ := tryCast_rd' (hr.ext (checkSL_frame b hb).1.1) hcc
    exact ⟨⟨_, .while hC' hB⟩, hC₃⟩
  | .annot f args s, Γ, Γ', s', h, hn, hs, hp, hl => by
    simp only [checkS, Option.bind_eq_bind, Option.bind_eq_some_iff, Prod.exists, Option.pure_def] at h
    obtain ⟨as, Γ₁, has, s₁, Γ₂, hss, h⟩ := h
    simp only [RStmt.lets] at hn
    simp only [RStmt.InScope] at hs
    simp only [RStmt.Plain] at hp
    obtain ⟨⟨k, hk, hshape⟩, hscope, hs⟩ := hs
    obtain ⟨hF, hS⟩ := checkL_frame false args has
    obtain ⟨hF₂, hS₂⟩ := checkS_frame s hss
    have hext := (hn.ext.trans hF.1).trans hF₂.1
    rw [hext.decl (by simp) hk] at h
    simp only [Option.bind_eq_some_iff, Option.some.injEq, Prod.mk.injEq] at h
    obtain ⟨as', has', rfl, rfl⟩ := h
    simp only [RStmt.LenOk] at hl
    rcases hp.1 with hpl | ⟨ty, m, rfl⟩
    · obtain ⟨hr, hC⟩ := checkL_rd false Γ₀ args has hn.left hscope hpl (checkCall_len has' hl.1)
      obtain ⟨⟨S, hS'⟩, hC₂⟩ := checkS_rd Γ₀ s hss (hn.right hF hC) hs hp.2 hl.2
      have hfit := checkCall_fits (fun a ha => (hr a ha).imp fun _ h => h.ext hF₂.1) has'
      obtain ⟨An, hAn⟩ := ann_reads hext hshape ((checkCall_strip has').trans hS) hfit
      exact ⟨⟨_, .annot (hext.decl (by simp) hk) hAn hS'⟩, hC₂⟩
    · have : as = [.lit (some .string) (.str m)] ∧ Γ₁ = Γ := by
        simp only [checkL, check, Option.bind_eq_bind, Option.bind_eq_some_iff, Option.pure_def, Prod.exists, Option.some.injEq,
          Prod.mk.injEq] at has
        obtain ⟨e', Γ'', ⟨e, he, rfl, rfl⟩, es, Γ''', ⟨rfl, rfl⟩, rfl, rfl⟩ := has
        rw [finish_some he]
        exact ⟨rfl, rfl⟩
      obtain ⟨rfl, rfl⟩ := this
      obtain ⟨n, b, rfl⟩ := ann_string rfl has'
      obtain ⟨⟨S, hS'⟩, hC₂⟩ := checkS_rd Γ₀ s hss (hn.right hF hn.ctx) hs hp.2 hl.2
      exact ⟨⟨_, .annot (hext.decl (by simp) hk) .slice hS'⟩, hC₂⟩
  | .label l, Γ, Γ', s', h, hn, hs, hp, hl => by
    simp only [checkS, Option.some.injEq, Prod.mk.injEq] at h
    obtain ⟨rfl, rfl⟩ := h
    exact ⟨⟨_, .label⟩, hn.ctx⟩

theorem checkSL_rd (Γ₀ : Ctx) : ∀ (ss : List RStmt) {Γ Γ' : Ctx} {ss' : List RStmt}, checkSL ss Γ = some (ss', Γ') →
    Now Γ₀ Γ [] (letsB ss) → InScopeB Γ₀ ss → PlainB ss → LenOkB (fun f => Γ₀ f = some (.listOp .len)) ss' →
    (∃ S, ReadsB Γ' ss' S) ∧ CtxOk Γ'
  | [], Γ, Γ', ss', h, hn, hs, hp, hl => by
    simp only [checkSL, Option.some.injEq, Prod.mk.injEq] at h
    obtain ⟨rfl, rfl⟩ := h
    exact ⟨⟨_, .nil⟩, hn.ctx⟩
  | s :: ss, Γ, Γ', ss', h, hn, hs, hp, hl => by
    simp only [checkSL, Option.bind_eq_bind, Option.bind_eq_some_iff, Prod.exists, Option.pure_def, Option.some.injEq,
      Prod.mk.injEq] at h
    obtain ⟨s', Γ₁, hss, ss'', Γ₂, hsss, rfl, rfl⟩ := h
    simp only [letsB] at hn
    simp only [InScopeB] at hs
    simp only [PlainB] at hp
    simp only [LenOkB] at hl
    obtain ⟨⟨S, hS⟩, hC⟩ := checkS_rd Γ₀ s hss hn.left hs.1 hp.1 hl.1
    obtain ⟨⟨SS, hSS⟩, hC₂⟩ := checkSL_rd Γ₀ ss hsss (hn.right (checkS_frame s hss).1 hC) hs.2 hp.2 hl.2
    exact ⟨⟨_, .cons (hS.ext (checkSL_frame ss hsss).1.1) hSS⟩, hC₂⟩

end

/-! ## Procedures -/

theorem ReadsSpec.ext {Γ Γ' : Ctx} (h : Ext Γ Γ') {s : RSpec} {S : ProcSpec} (hs : ReadsSpec Γ s S) : ReadsSpec Γ' s S := by
  cases hs with
  | requires h' => exact .requires (h'.ext h)
  | ensures h' => exact .ensures (h'.ext h)

theorem checkSpec_frame {s s' : RSpec} {Γ Γ' : Ctx} (h : checkSpec s Γ = some (s', Γ')) :
    Frame s.expr.lets Γ Γ' ∧ s'.strip = s.strip := by
  cases s <;>
  · simp only [checkSpec, Option.bind_eq_bind, Option.bind_eq_some_iff, Prod.exists, Option.pure_def, Option.some.injEq,
      Prod.mk.injEq] at h
    obtain ⟨e₁, Γ₁, he, e₂, hc, rfl, rfl⟩ := h
    obtain ⟨hF, hS⟩ := check_frame _ _ he
    exact ⟨hF, by simp only [RSpec.strip, tryCast_strip hc, hS]⟩

theorem checkSpecs_frame : ∀ {ss ss' : List RSpec} {Γ Γ' : Ctx}, checkSpecs ss Γ = some (ss', Γ') →
    Frame (letsSpec ss) Γ Γ' ∧ ss'.map RSpec.strip = ss.map RSpec.strip
  | [], ss', Γ, Γ', h => by
    simp only [checkSpecs, Option.some.injEq, Prod.mk.injEq] at h
    obtain ⟨rfl, rfl⟩ := h
    exact ⟨Frame.refl _, rfl⟩
  | s :: ss, ss', Γ, Γ', h => by
    simp only [checkSpecs, Option.bind_eq_bind, Option.bind_eq_some_iff, Prod.exists, Option.pure_def, Option.some.injEq,
      Prod.mk.injEq] at h
    obtain ⟨s', Γ₁, hs, ss'', Γ₂, hss, rfl, rfl⟩ := h
    obtain ⟨hF, hS⟩ := checkSpec_frame hs
    obtain ⟨hF₂, hS₂⟩ := checkSpecs_frame hss
    exact ⟨hF.append hF₂, by simp only [List.map_cons, hS, hS₂]⟩

theorem checkSpecs_rd (Γ₀ : Ctx) : ∀ {ss ss' : List RSpec} {Γ Γ' : Ctx}, checkSpecs ss Γ = some (ss', Γ') →
    Now Γ₀ Γ [] (letsSpec ss) → (∀ s ∈ ss, s.expr.InScope Γ₀ []) → (∀ s ∈ ss, s.expr.Plain) →
    (∀ s ∈ ss', LenOnLists Γ₀ s.expr) → (∃ SS, List.Forall₂ (ReadsSpec Γ') ss' SS) ∧ CtxOk Γ'
  | [], ss', Γ, Γ', h, hn, _, _, _ => by
    simp only [checkSpecs, Option.some.injEq, Prod.mk.injEq] at h
    obtain ⟨rfl, rfl⟩ := h
    exact ⟨⟨_, .nil⟩, hn.ctx⟩
  | s :: ss, ss', Γ, Γ', h, hn, hs, hp, hl => by
    simp only [checkSpecs, Option.bind_eq_bind, Option.bind_eq_some_iff, Prod.exists, Option.pure_def, Option.some.injEq,
      Prod.mk.injEq] at h
    obtain ⟨s', Γ₁, hss, ss'', Γ₂, hsss, rfl, rfl⟩ := h
    simp only [letsSpec] at hn
    have hone : (∃ S, ReadsSpec Γ₁ s' S) ∧ CtxOk Γ₁ := by
      have h1 := hs s (.head _)
      have h2 := hp s (.head _)
      have h3 := hl s' (.head _)
      have h4 := hn.left
      cases s with
      | requires e =>
        simp only [checkSpec, Option.bind_eq_bind, Option.bind_eq_some_iff, Prod.exists, Option.pure_def, Option.some.injEq,
          Prod.mk.injEq] at hss
        obtain ⟨e₁, Γ₁, he, e₂, hc, rfl, rfl⟩ := hss
        obtain ⟨⟨t, hr⟩, hC⟩ := check_rd true Γ₀ e he h4 h1 h2 (tryCast_len hc h3)
        obtain ⟨E, hE⟩ := tryCast_rd' hr hc
        exact ⟨⟨_, .requires hE⟩, hC⟩
      | ensures e =>
        simp only [checkSpec, Option.bind_eq_bind, Option.bind_eq_some_iff, Prod.exists, Option.pure_def, Option.some.injEq,
          Prod.mk.injEq] at hss
        obtain ⟨e₁, Γ₁, he, e₂, hc, rfl, rfl⟩ := hss
        obtain ⟨⟨t, hr⟩, hC⟩ := check_rd false Γ₀ e he h4 h1 h2 (tryCast_len hc h3)
        obtain ⟨E, hE⟩ := tryCast_rd' hr hc
        exact ⟨⟨_, .ensures hE⟩, hC⟩
    obtain ⟨⟨S, hS⟩, hC⟩ := hone
    obtain ⟨⟨SS, hSS⟩, hC₂⟩ := checkSpecs_rd Γ₀ hsss (hn.right (checkSpec_frame hss).1 hC) (fun s h => hs s (.tail _ h))
      (fun s h => hp s (.tail _ h)) (fun s h => hl s (.tail _ h))
    exact ⟨⟨_, .cons (hS.ext (checkSpecs_frame hsss).1.1) hSS⟩, hC₂⟩

theorem checkProcDecl_rd {Γ Γ' : Ctx} {p p' : RProc} (h : checkProcDecl p Γ = some (p', Γ')) (hr : ResolvedP Γ p)
    (hl : LenOnListsP Γ p') : ∃ P, ReadsProc Γ' p' P := by
  have hn : Now Γ Γ [] (letsSpec p.spec ++ letsB p.block) := ⟨.refl _, hr.ctx, fun _ h => (nomatch h), hr.lets, hr.nodup⟩
  have hscope := hr.scope
  have hplain := hr.plain
  simp only [checkProcDecl, Option.bind_eq_bind, Option.bind_eq_some_iff, Prod.exists, Option.pure_def] at h
  obtain ⟨spec, Γ₁, hspec, h⟩ := h
  split at h
  · rename_i hb
    simp only [Option.some.injEq, Prod.mk.injEq] at h
    obtain ⟨rfl, rfl⟩ := h
    obtain ⟨⟨SS, hSS⟩, hC⟩ := checkSpecs_rd Γ hspec hn.left hr.specScope hr.specPlain hl.1
    exact ⟨⟨p.name, p.dir, p.inputs, p.outputs, SS, none⟩, rfl, rfl, rfl, rfl, hSS, by rw [hb]; exact .none⟩
  · rename_i b hb
    simp only [Option.bind_eq_some_iff, Prod.exists, Option.some.injEq, Prod.mk.injEq] at h
    obtain ⟨b', Γ₂, hb', rfl, rfl⟩ := h
    have hblock : p.block = b := by simp [RProc.block, hb]
    rw [hblock] at hn hscope hplain
    obtain ⟨⟨SS, hSS⟩, hC⟩ := checkSpecs_rd Γ hspec hn.left hr.specScope hr.specPlain hl.1
    obtain ⟨⟨B, hB⟩, -⟩ := checkSL_rd Γ b hb' (hn.right (checkSpecs_frame hspec).1 hC) hscope hplain hl.2
    exact ⟨⟨p.name, p.dir, p.inputs, p.outputs, SS, some B⟩, rfl, rfl, rfl, rfl,
      hSS.imp fun _ _ h => h.ext (checkSL_frame b hb').1.1, .some hB⟩

theorem checkProcDecl_strip {Γ Γ' : Ctx} {p p' : RProc} (h : checkProcDecl p Γ = some (p', Γ')) : p'.strip = p.strip := by
  simp only [checkProcDecl, Option.bind_eq_bind, Option.bind_eq_some_iff, Prod.exists, Option.pure_def] at h
  obtain ⟨spec, Γ₁, hspec, h⟩ := h
  have hS := (checkSpecs_frame hspec).2
  split at h
  · rename_i hb
    simp only [Option.some.injEq, Prod.mk.injEq] at h
    obtain ⟨rfl, rfl⟩ := h
    simp only [RProc.strip, hS]
  · rename_i b hb
    simp only [Option.bind_eq_some_iff, Prod.exists, Option.some.injEq, Prod.mk.injEq] at h
    obtain ⟨b', Γ₂, hb', rfl, rfl⟩ := h
    simp only [RProc.strip, hS, hb, Option.map_some, (checkSL_frame b hb').2]

end Front
end Caesar
